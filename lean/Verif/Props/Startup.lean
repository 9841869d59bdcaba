import Verif.Proofs.Startup

/-!
# C135: initialization is done once, and all or nothing
-/

namespace Cru.Startup

/-- Resources meant to stay initialized until the process exits: not the attributes needed only in passing, six keys, and as many locks
in the pool as configured. -/
def Permanent (size : Nat) : Res → Bool
  | .errAttr | .crewAttr => false
  | .key i => i < 6
  | .pool i => i < size
  | _ => true

theorem count_pools (n : Nat) (B : Multiset Res) (r : Res) :
    (pools n B).count r = B.count r + (match r with | .pool i => if i < n then 1 else 0 | _ => 0) := by
  induction n with
  | zero => cases r <;> simp [pools]
  | succ n ih =>
    rw [pools, Multiset.count_cons, ih]
    cases r with
    | pool i =>
      simp only [Res.pool.injEq]
      split_ifs <;> omega
    | _ => simp

theorem count_everything (n : Nat) (r : Res) : (everything n).count r = if Permanent n r then 1 else 0 := by
  unfold everything cthread keys
  simp only [Multiset.count_cons, count_pools, Multiset.count_zero]
  cases r with
  | key i =>
    simp only [Permanent, Res.key.injEq, reduceCtorEq, if_false, decide_eq_true_eq]
    split_ifs <;> omega
  | pool i => simp [Permanent]
  | _ => simp [Permanent]

variable (F : Env)

theorem start_opens (hF : ∀ i, F.code i ≠ 0) : Outcome (initialization F start.st) 0 (everything F.size) :=
  initialization_opens hF start.st ⟨rfl, rfl, rfl⟩

theorem entry_once (e : Int) (p : Proc) (h : p.once = true) : (entry F e p).1 = p := by
  unfold entry
  simp only [h, if_true]
  split_ifs <;> rfl

theorem calls_once (es : List Int) (p : Proc) (h : p.once = true) : (calls F es p).1 = p := by
  induction es generalizing p with
  | nil => rfl
  | cons e es ih =>
    unfold calls
    dsimp only
    rw [entry_once F e p h]
    exact ih p h

/-- The process after its first call. -/
theorem calls_cons (e : Int) (es : List Int) :
    (calls F (e :: es) start).1 = ⟨(initialization F start.st).1, true, (initialization F start.st).2⟩ := by
  have h : (entry F e start).1 = ⟨(initialization F start.st).1, true, (initialization F start.st).2⟩ := by
    unfold entry start
    simp only [Bool.false_eq_true, if_false]
    split_ifs <;> rfl
  unfold calls
  dsimp only
  rw [h]
  exact calls_once F es _ rfl

/-- **C135, all or nothing.**  However the calls made during initialization fail, nothing is initialized twice or destroyed without having
been initialized.  If initialization succeeds, every permanent resource has been initialized exactly once and no other remains.
Otherwise there's an error code and nothing remains initialized. -/
theorem C135_all_or_nothing (hF : ∀ i, F.code i ≠ 0) :
    (initialization F start.st).1.bad = false ∧
    ((initialization F start.st).2 = true →
      (initialization F start.st).1.err = 0 ∧
      ∀ r, (initialization F start.st).1.held.count r = if Permanent F.size r then 1 else 0) ∧
    ((initialization F start.st).2 = false →
      (initialization F start.st).1.err ≠ 0 ∧ (initialization F start.st).1.held = 0) := by
  have h := start_opens F hF
  generalize initialization F start.st = x at h ⊢
  obtain ⟨h1, h2⟩ := h
  cases hx : x.2 with
  | true =>
    obtain ⟨a, b, c⟩ := h1 hx
    refine ⟨by assumption, fun _ => ⟨by assumption, fun r => ?_⟩, fun h => (by cases h)⟩
    have : x.1.held = everything F.size := by assumption
    rw [this, count_everything]
  | false =>
    obtain ⟨a, b, c⟩ := h2 hx
    exact ⟨a, fun h => (by cases h), fun _ => ⟨b, c⟩⟩

/-- **C135, torn down.**  After any calls, when the process exits everything that was initialized has been destroyed exactly once. -/
theorem C135_torn_down (hF : ∀ i, F.code i ≠ 0) (es : List Int) :
    (exited F (calls F es start).1).held = 0 ∧ (exited F (calls F es start).1).bad = false := by
  cases es with
  | nil =>
    have : exited F (calls F [] start).1 = start.st := rfl
    rw [this]
    exact ⟨rfl, rfl⟩
  | cons e es =>
    rw [calls_cons]
    obtain ⟨h0, h1, h2⟩ := C135_all_or_nothing F hF
    have ho := start_opens F hF
    generalize initialization F start.st = x at h0 h1 h2 ho ⊢
    unfold exited
    dsimp only
    cases hx : x.2 with
    | true =>
      have hh : x.1.held = everything F.size := by
        obtain ⟨a, b, c⟩ := ho.1 hx
        assumption
      rw [if_pos (by rw [hh]; simp [everything])]
      obtain ⟨a, b, -⟩ := teardown_closes (F := F) x.1 h0 hh
      exact ⟨b, a⟩
    | false =>
      obtain ⟨-, b⟩ := h2 hx
      rw [if_neg (by rw [b]; simp)]
      exact ⟨b, h0⟩

theorem entry_result (e : Int) (p : Proc) (h : p.once = true) :
    (entry F e p).2 = if p.initialized then (e, true) else (if e = 0 then (if p.st.err = 0 then -906 else p.st.err) else e, false) := by
  unfold entry
  simp only [h, if_true]
  split_ifs <;> rfl

theorem entry_first (e : Int) :
    entry F e start = entry F e ⟨(initialization F start.st).1, true, (initialization F start.st).2⟩ := by
  unfold entry start
  simp only [Bool.false_eq_true, if_false, if_true]

theorem calls_results (es : List Int) (p : Proc) (h : p.once = true) :
    (calls F es p).2 =
      es.map fun e => if p.initialized then (e, true) else (if e = 0 then (if p.st.err = 0 then -906 else p.st.err) else e, false) := by
  induction es with
  | nil => rfl
  | cons e es ih =>
    unfold calls
    dsimp only
    rw [entry_once F e p h, entry_result F e p h, ih]
    rfl

/-- **C135, once.**  All calls come to the same conclusion, reached by a single initialization: if it has succeeded, each of them goes on
with its error code unchanged; otherwise none goes on, and each reports the error that made initialization fail unless it has one
already. -/
theorem C135_once (hF : ∀ i, F.code i ≠ 0) (es : List Int) :
    ((initialization F start.st).2 = true → (calls F es start).2 = es.map fun e => (e, true)) ∧
    ((initialization F start.st).2 = false →
      (calls F es start).2 = es.map fun e => (if e = 0 then (initialization F start.st).1.err else e, false)) ∧
    (es ≠ [] → (calls F es start).1.st = (initialization F start.st).1) := by
  cases es with
  | nil => exact ⟨fun _ => rfl, fun _ => rfl, fun h => absurd rfl h⟩
  | cons e es =>
    have hc := calls_cons F e es
    obtain ⟨-, -, h2⟩ := C135_all_or_nothing F hF
    have hr : (calls F (e :: es) start).2 =
        (calls F (e :: es) ⟨(initialization F start.st).1, true, (initialization F start.st).2⟩).2 := by
      unfold calls
      dsimp only
      rw [entry_first]
    rw [hr, calls_results F _ _ rfl, hc]
    generalize initialization F start.st = x at h2 ⊢
    refine ⟨fun h => ?_, fun h => ?_, fun _ => rfl⟩
    · dsimp only; simp only [h, if_true]
    · dsimp only
      simp only [h, Bool.false_eq_true, if_false, if_neg (h2 h).1]

/-- **C135, success.**  Initialization succeeds if none of the calls it makes fails. -/
theorem C135_succeeds (hF : ∀ i, F.code i ≠ 0) (h : ∀ i, F.fails i = false) : (initialization F start.st).2 = true := by
  cases hx : (initialization F start.st).2 with
  | true => rfl
  | false => exact absurd (initialization_err h start.st) ((start_opens F hF).2 hx).2.1

/-- A pool of three locks, where the call with number `n` fails with `EAGAIN`. -/
def demo (n : Nat) : Env := ⟨3, fun i => i == n, fun _ => 11⟩

/-- The last lock of the pool can't be initialized: nothing is left, and three calls from the application all fail. -/
example : (initialization (demo 13) start.st).2 = false ∧ (initialization (demo 13) start.st).1.held = 0 ∧
    (calls (demo 13) [0, 7, 0] start).2 = [(11, false), (7, false), (11, false)] := by decide +kernel

/-- The call that fails isn't reached: 18 resources are initialized by 23 calls, and none is left at exit. -/
example : (initialization (demo 23) start.st).2 = true ∧ (initialization (demo 23) start.st).1.held.card = 18 ∧ (initialization (demo 23) start.st).1.calls = 23 ∧
    (calls (demo 23) [0, 7, 0] start).2 = [(0, true), (7, true), (0, true)] ∧
    (exited (demo 23) (calls (demo 23) [0, 7, 0] start).1).held = 0 := by decide +kernel

example : ∀ i, (demo 13).code i ≠ 0 := fun _ => (by decide : (11 : Int) ≠ 0)

end Cru.Startup
