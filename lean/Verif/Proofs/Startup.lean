import Verif.Model.Startup
import Mathlib.Data.Multiset.Count
import Mathlib.Data.Multiset.MapFold
import Mathlib.Data.Multiset.Range

namespace Cru.Startup

variable {F : Env}

def OK (s : St) (h : Multiset Res) : Prop := s.bad = false ∧ s.err = 0 ∧ s.held = h

def Outcome (x : St × Bool) (B A : Multiset Res) : Prop :=
  (x.2 = true → OK x.1 A) ∧ (x.2 = false → x.1.bad = false ∧ x.1.err ≠ 0 ∧ x.1.held = B)

def Opens (f : St → St × Bool) (B A : Multiset Res) : Prop := ∀ s, OK s B → Outcome (f s) B A

def Closes (c : St → St) (A B : Multiset Res) : Prop :=
  ∀ s, s.bad = false → s.held = A → (c s).bad = false ∧ (c s).held = B ∧ (c s).err = s.err

theorem closes_id (A : Multiset Res) : Closes (fun s => s) A A := fun _ hb hh => ⟨hb, hh, rfl⟩

theorem closes_comp {c d : St → St} {A B C : Multiset Res} (hc : Closes c A B) (hd : Closes d B C) : Closes (fun s => d (c s)) A C := by
  intro s hb hh
  obtain ⟨h1, h2, h3⟩ := hc s hb hh
  obtain ⟨h4, h5, h6⟩ := hd (c s) h1 h2
  exact ⟨h4, h5, h6.trans h3⟩

theorem release_closes (r : Res) {A B : Multiset Res} (h : A = r ::ₘ B) : Closes (release r) A B := by
  intro s hb hh
  rw [h] at hh
  simp [release, hh, hb]

theorem attempt_opens (hF : ∀ i, F.code i ≠ 0) (B : Multiset Res) : Opens (attempt F) B B := by
  rintro s ⟨hb, he, hh⟩
  unfold attempt
  by_cases h : F.fails s.calls = true
  · rw [if_pos h]
    exact ⟨fun h => (by cases h), fun _ => ⟨hb, by simp [he, hF], hh⟩⟩
  · rw [if_neg h]
    exact ⟨fun _ => ⟨hb, he, hh⟩, fun h => by cases h⟩

theorem acquire_opens (hF : ∀ i, F.code i ≠ 0) (r : Res) (B : Multiset Res) (hr : r ∉ B) : Opens (acquire F r) B (r ::ₘ B) := by
  intro s hs
  have ha := attempt_opens hF B s hs
  obtain ⟨hb, he, hh⟩ := hs
  unfold acquire
  dsimp only
  by_cases h : (attempt F s).2 = true
  · rw [if_pos h]
    obtain ⟨h1, h2, h3⟩ := ha.1 h
    exact ⟨fun _ => ⟨by simp [hb, hh, hr], h2, by simp [hh]⟩, fun h => (by cases h)⟩
  · rw [if_neg h]
    exact ⟨fun h' => absurd h' h, ha.2⟩

theorem guard {f : St → St × Bool} {c : St → St} {k : St → St × Bool} {B₁ A₁ B A : Multiset Res} (hf : Opens f B₁ A₁) (hc : Closes c B₁ B)
    (hk : ∀ t, OK t A₁ → Outcome (k t) B A) (s : St) (hs : OK s B₁) : Outcome (otherwise f c k s) B A := by
  unfold otherwise
  have h := hf s hs
  cases hx : (f s).2 with
  | true => simp only [hx, Bool.not_true, Bool.false_eq_true, if_false]; exact hk _ (h.1 hx)
  | false =>
    simp only [hx, Bool.not_false, if_true]
    obtain ⟨h1, h2, h3⟩ := h.2 hx
    obtain ⟨h4, h5, h6⟩ := hc _ h1 h3
    exact ⟨fun h => (by cases h), fun _ => ⟨h4, by rw [h6]; exact h2, h5⟩⟩

theorem done {s : St} {B A : Multiset Res} (h : OK s A) : Outcome (s, true) B A := ⟨fun _ => h, fun h => (by cases h)⟩

theorem mutexType_opens (hF : ∀ i, F.code i ≠ 0) (a : Res) (B : Multiset Res) (ha : a ∉ B) : Opens (mutexType F a) B (a ::ₘ B) := by
  intro s hs
  have hx := acquire_opens hF a B ha s hs
  unfold mutexType
  dsimp only
  by_cases h : (acquire F a s).2 = true
  · rw [if_pos h]
    have hy := attempt_opens hF _ _ (hx.1 h)
    by_cases h' : (attempt F (acquire F a s).1).2 = true
    · rw [if_pos h']
      exact ⟨hy.1, fun h => by rw [h'] at h; cases h⟩
    · rw [if_neg h']
      obtain ⟨h1, h2, h3⟩ := hy.2 (by simpa using h')
      obtain ⟨h4, h5, h6⟩ := release_closes a rfl _ h1 h3
      exact ⟨fun h => (by cases h), fun _ => ⟨h4, by rw [h6]; exact h2, h5⟩⟩
  · rw [if_neg h]
    exact ⟨fun h' => absurd h' h, hx.2⟩

theorem openLock_opens (hF : ∀ i, F.code i ≠ 0) (a l : Res) (B : Multiset Res) (hal : a ≠ l) (ha : a ∉ B) (hl : l ∉ B) :
    Opens (openLock F a l) B (l ::ₘ B) := by
  intro s hs
  have hx := mutexType_opens hF a B ha s hs
  unfold openLock
  dsimp only
  by_cases h : (mutexType F a s).2 = true
  · rw [if_pos h]
    have hy := acquire_opens hF l (a ::ₘ B) (by simp [hal.symm, hl]) _ (hx.1 h)
    refine ⟨fun h' => ?_, fun h' => ?_⟩
    · obtain ⟨h1, h2, h3⟩ := hy.1 h'
      obtain ⟨h4, h5, h6⟩ := release_closes a (Multiset.cons_swap l a B) _ h1 h3
      exact ⟨h4, h6.trans h2, h5⟩
    · obtain ⟨h1, h2, h3⟩ := hy.2 h'
      obtain ⟨h4, h5, h6⟩ := release_closes a rfl _ h1 h3
      exact ⟨h4, by dsimp only; rw [h6]; exact h2, h5⟩
  · rw [if_neg h]
    exact ⟨fun h' => absurd h' h, hx.2⟩

/-- The keys. -/
def keys (B : Multiset Res) : Multiset Res := .key 5 ::ₘ .key 4 ::ₘ .key 3 ::ₘ .key 2 ::ₘ .key 1 ::ₘ .key 0 ::ₘ B

theorem openGetset_opens (hF : ∀ i, F.code i ≠ 0) (B : Multiset Res) (h : ∀ i, Res.key i ∉ B) : Opens (openGetset F) B (keys B) := by
  unfold openGetset keys
  refine guard (acquire_opens hF _ _ (h 0)) (closes_id B) ?_
  refine guard (acquire_opens hF _ _ (by simp [h])) (release_closes _ rfl) ?_
  refine guard (acquire_opens hF _ _ (by simp [h])) (closes_comp (release_closes _ rfl) (release_closes _ rfl)) ?_
  refine guard (acquire_opens hF _ _ (by simp [h]))
    (closes_comp (closes_comp (release_closes _ rfl) (release_closes _ rfl)) (release_closes _ rfl)) ?_
  refine guard (acquire_opens hF _ _ (by simp [h]))
    (closes_comp (closes_comp (closes_comp (release_closes _ rfl) (release_closes _ rfl)) (release_closes _ rfl)) (release_closes _ rfl)) ?_
  exact guard (acquire_opens hF _ _ (by simp [h]))
    (closes_comp (closes_comp (closes_comp (closes_comp (release_closes _ rfl) (release_closes _ rfl)) (release_closes _ rfl))
      (release_closes _ rfl)) (release_closes _ rfl)) (fun t ht => done ht)

theorem closeGetset_closes (B : Multiset Res) : Closes closeGetset (keys B) B := by
  unfold closeGetset keys
  refine closes_comp (closes_comp (closes_comp (closes_comp (closes_comp (release_closes (.key 5) rfl) (release_closes (.key 4) rfl))
    (release_closes (.key 0) (B := .key 3 ::ₘ .key 2 ::ₘ .key 1 ::ₘ B) ?_)) (release_closes (.key 2) (B := .key 3 ::ₘ .key 1 ::ₘ B) ?_))
    (release_closes (.key 1) (B := .key 3 ::ₘ B) ?_)) (release_closes (.key 3) rfl)
  all_goals (ext a; simp only [Multiset.count_cons]; omega)

/-- The first locks of the pool. -/
def pools : Nat → Multiset Res → Multiset Res
  | 0, B => B
  | n + 1, B => .pool n ::ₘ pools n B

theorem mem_pools (n : Nat) (B : Multiset Res) (r : Res) : r ∈ pools n B ↔ r ∈ B ∨ ∃ i < n, r = .pool i := by
  induction n with
  | zero => simp [pools]
  | succ n ih =>
    simp only [pools, Multiset.mem_cons, ih]
    constructor
    · rintro (h | h | ⟨i, hi, h⟩)
      · exact .inr ⟨n, Nat.lt_succ_self n, h⟩
      · exact .inl h
      · exact .inr ⟨i, Nat.lt_succ_of_lt hi, h⟩
    · rintro (h | ⟨i, hi, h⟩)
      · exact .inr (.inl h)
      · rcases Nat.lt_succ_iff_lt_or_eq.mp hi with hi | hi
        · exact .inr (.inr ⟨i, hi, h⟩)
        · subst hi; exact .inl h

theorem poolUp_spec (hF : ∀ i, F.code i ≠ 0) (B : Multiset Res) (h : ∀ i, Res.pool i ∉ B) (todo i : Nat) (s : St) (hs : OK s (pools i B)) :
    ((poolUp F todo i s).2.2 = true → (poolUp F todo i s).2.1 = i + todo ∧ OK (poolUp F todo i s).1 (pools (i + todo) B)) ∧
    ((poolUp F todo i s).2.2 = false → (poolUp F todo i s).1.bad = false ∧ (poolUp F todo i s).1.err ≠ 0 ∧
      (poolUp F todo i s).1.held = pools (poolUp F todo i s).2.1 B) := by
  induction todo generalizing i s with
  | zero => exact ⟨fun _ => ⟨rfl, hs⟩, fun h => by cases h⟩
  | succ todo ih =>
    have hx := acquire_opens hF (.pool i) (pools i B) (by
      rw [mem_pools]
      rintro (h' | ⟨j, hj, h'⟩)
      · exact h i h'
      · injection h' with h'; omega) s hs
    rw [poolUp]
    by_cases hc : (acquire F (.pool i) s).2 = true
    · rw [if_pos hc]
      have := ih (i + 1) _ (hx.1 hc)
      rw [show i + 1 + todo = i + (todo + 1) from by omega] at this
      exact this
    · rw [if_neg hc]
      exact ⟨fun h => (by cases h), fun _ => hx.2 (by simpa using hc)⟩

theorem poolDown_closes (n : Nat) (B : Multiset Res) : Closes (poolDown n) (pools n B) B := by
  induction n with
  | zero => exact closes_id B
  | succ n ih => exact closes_comp (c := release (.pool n)) (release_closes (.pool n) rfl) ih

/-- Locks from `i` on. -/
def poolsFrom : Nat → Nat → Multiset Res → Multiset Res
  | 0, _, B => B
  | todo + 1, i, B => .pool i ::ₘ poolsFrom todo (i + 1) B

theorem poolsFrom_last (todo i : Nat) (B : Multiset Res) : poolsFrom (todo + 1) i B = .pool (i + todo) ::ₘ poolsFrom todo i B := by
  induction todo generalizing i with
  | zero => rfl
  | succ todo ih =>
    rw [poolsFrom, ih, poolsFrom, Multiset.cons_swap]
    congr 2
    omega

theorem pools_eq (n : Nat) (B : Multiset Res) : pools n B = poolsFrom n 0 B := by
  induction n with
  | zero => rfl
  | succ n ih => rw [pools, ih, poolsFrom_last, Nat.zero_add]

theorem poolClose_closes (todo i : Nat) (B : Multiset Res) : Closes (poolClose todo i) (poolsFrom todo i B) B := by
  induction todo generalizing i with
  | zero => exact closes_id B
  | succ todo ih => exact closes_comp (c := release (.pool i)) (release_closes (.pool i) rfl) (ih (i + 1))

/-- What `cthread.c` holds. -/
def cthread (n : Nat) (B : Multiset Res) : Multiset Res := .threadAttr ::ₘ pools n (.mutexAttr ::ₘ B)

theorem pools_cons (n : Nat) (r : Res) (B : Multiset Res) : pools n (r ::ₘ B) = r ::ₘ pools n B := by
  induction n with
  | zero => rfl
  | succ n ih => rw [pools, ih, pools, Multiset.cons_swap]

theorem openCthread_opens (hF : ∀ i, F.code i ≠ 0) (B : Multiset Res) (h : ∀ i, Res.pool i ∉ B) (h1 : Res.mutexAttr ∉ B) (h2 : Res.threadAttr ∉ B) :
    Opens (openCthread F) B (cthread F.size B) := by
  unfold openCthread cthread
  refine guard (mutexType_opens hF .mutexAttr B h1) (closes_id B) (fun t ht => ?_)
  have hp := poolUp_spec hF (.mutexAttr ::ₘ B) (by intro i; simp [h]) F.size 0 t ht
  have hcl : ∀ n, Closes (fun s => poolDown n (release .mutexAttr s)) (pools n (.mutexAttr ::ₘ B)) B := fun n =>
    closes_comp (release_closes .mutexAttr (pools_cons n _ B)) (poolDown_closes n B)
  dsimp only
  cases hc : (poolUp F F.size 0 t).2.2 with
  | false =>
    simp only [Bool.not_false, if_true]
    obtain ⟨h3, h4, h5⟩ := hp.2 hc
    obtain ⟨h6, h7, h8⟩ := hcl _ _ h3 h5
    exact ⟨fun h => (by cases h), fun _ => ⟨h6, by rw [h8]; exact h4, h7⟩⟩
  | true =>
    simp only [Bool.not_true, Bool.false_eq_true, if_false]
    obtain ⟨h3, h4⟩ := hp.1 hc
    rw [Nat.zero_add] at h3 h4
    rw [h3]
    have hz := acquire_opens hF .threadAttr (pools F.size (.mutexAttr ::ₘ B)) (by
      rw [mem_pools]
      rintro (h' | ⟨j, hj, h'⟩)
      · simp [h2] at h'
      · cases h') _ h4
    by_cases hc' : (acquire F .threadAttr (poolUp F F.size 0 t).1).2 = true
    · rw [if_pos hc']
      exact ⟨hz.1, fun h => by rw [hc'] at h; cases h⟩
    · rw [if_neg hc']
      obtain ⟨h3, h4, h5⟩ := hz.2 (by simpa using hc')
      obtain ⟨h6, h7, h8⟩ := hcl _ _ h3 h5
      exact ⟨fun h => (by cases h), fun _ => ⟨h6, by rw [h8]; exact h4, h7⟩⟩

theorem closeCthread_closes (B : Multiset Res) : Closes (closeCthread F) (cthread F.size B) B := by
  unfold closeCthread cthread
  refine closes_comp (closes_comp (release_closes .mutexAttr (B := .threadAttr ::ₘ pools F.size B) ?_) (release_closes .threadAttr rfl)) ?_
  · rw [pools_cons, Multiset.cons_swap]
  · rw [pools_eq]; exact poolClose_closes _ _ B

/-- Everything there is. -/
def everything (n : Nat) : Multiset Res :=
  .exit ::ₘ .wrapLock ::ₘ .graphLock ::ₘ .packetLock ::ₘ .crewLock ::ₘ .killerLock ::ₘ cthread n (keys (.errLock ::ₘ 0))

theorem initialization_opens (hF : ∀ i, F.code i ≠ 0) : Opens (initialization F) 0 (everything F.size) := by
  unfold initialization everything
  have ha : Closes closeErrs (.errLock ::ₘ 0) 0 := release_closes _ rfl
  have hb := closes_comp (closeGetset_closes (.errLock ::ₘ 0)) ha
  have hc := closes_comp (closeCthread_closes (F := F) (keys (.errLock ::ₘ 0))) hb
  have hd := closes_comp (release_closes .killerLock (B := cthread F.size (keys (.errLock ::ₘ 0))) rfl) hc
  have he := closes_comp (release_closes .crewLock rfl) hd
  have hf := closes_comp (release_closes .packetLock rfl) he
  have hh := closes_comp (release_closes .graphLock rfl) hf
  have hi := closes_comp (release_closes .wrapLock rfl) hh
  have hk : ∀ r, r ∈ cthread F.size (keys (.errLock ::ₘ 0)) → r = .threadAttr ∨ r = .mutexAttr ∨ r = .errLock ∨ (∃ i, r = .pool i) ∨ ∃ i, r = .key i := by
    intro r hr
    simp only [cthread, keys, Multiset.mem_cons, mem_pools, Multiset.notMem_zero, or_false] at hr
    rcases hr with h | (h | h | h | h | h | h | h | h) | ⟨i, _, h⟩ <;> simp [h]
  refine guard (openLock_opens hF _ _ 0 (by decide) (by simp) (by simp)) (closes_id 0) ?_
  refine guard (openGetset_opens hF _ (by intro i; simp)) ha ?_
  refine guard (openCthread_opens hF _ (by intro i; simp [keys]) (by simp [keys]) (by simp [keys])) hb ?_
  refine guard (acquire_opens hF _ _ (fun h => by simpa using hk _ h)) hc ?_
  refine guard (openLock_opens hF _ _ _ (by decide) (by simp only [Multiset.mem_cons]; rintro (h | h); cases h; simpa using hk _ h)
    (by simp only [Multiset.mem_cons]; rintro (h | h); cases h; simpa using hk _ h)) hd ?_
  refine guard (acquire_opens hF _ _ (by simp only [Multiset.mem_cons]; rintro (h | h | h); cases h; cases h; simpa using hk _ h)) he ?_
  refine guard (acquire_opens hF _ _ (by
    simp only [Multiset.mem_cons]; rintro (h | h | h | h); cases h; cases h; cases h; simpa using hk _ h)) hf ?_
  refine guard (acquire_opens hF _ _ (by
    simp only [Multiset.mem_cons]; rintro (h | h | h | h | h); cases h; cases h; cases h; cases h; simpa using hk _ h)) hh ?_
  exact guard (acquire_opens hF _ _ (by
    simp only [Multiset.mem_cons]; rintro (h | h | h | h | h | h); cases h; cases h; cases h; cases h; cases h; simpa using hk _ h)) hi
    (fun t ht => done ht)

theorem keys_cons (r : Res) (B : Multiset Res) : keys (r ::ₘ B) = r ::ₘ keys B := by
  unfold keys; ext a; simp only [Multiset.count_cons]; omega

theorem cthread_cons (n : Nat) (r : Res) (B : Multiset Res) : cthread n (r ::ₘ B) = r ::ₘ cthread n B := by
  unfold cthread
  rw [pools_cons, pools_cons, pools_cons, Multiset.cons_swap .mutexAttr r, Multiset.cons_swap .threadAttr r]

theorem cthread_keys (n : Nat) (B : Multiset Res) : cthread n (keys B) = keys (cthread n B) := by
  unfold keys; simp only [cthread_cons]

theorem teardown_closes : Closes (teardown F) (everything F.size) 0 := by
  have h1 : Closes (release .exit) (everything F.size)
      (.wrapLock ::ₘ .graphLock ::ₘ .packetLock ::ₘ .crewLock ::ₘ .killerLock ::ₘ cthread F.size (keys (.errLock ::ₘ 0))) := release_closes .exit rfl
  have h2 : Closes (release .killerLock)
      (.wrapLock ::ₘ .graphLock ::ₘ .packetLock ::ₘ .crewLock ::ₘ .killerLock ::ₘ cthread F.size (keys (.errLock ::ₘ 0)))
      (keys (cthread F.size (.packetLock ::ₘ .crewLock ::ₘ .wrapLock ::ₘ .graphLock ::ₘ .errLock ::ₘ 0))) := by
    apply release_closes
    rw [cthread_keys]
    simp only [cthread_cons, keys_cons]
    ext a
    simp only [Multiset.count_cons]
    omega
  have h3 := closeGetset_closes (cthread F.size (.packetLock ::ₘ .crewLock ::ₘ .wrapLock ::ₘ .graphLock ::ₘ .errLock ::ₘ 0))
  have h4 := closeCthread_closes (F := F) (.packetLock ::ₘ .crewLock ::ₘ .wrapLock ::ₘ .graphLock ::ₘ .errLock ::ₘ 0)
  have h5 : Closes (release .packetLock) _ (.crewLock ::ₘ .wrapLock ::ₘ .graphLock ::ₘ .errLock ::ₘ 0) := release_closes .packetLock rfl
  have h6 : Closes (release .crewLock) _ (.wrapLock ::ₘ .graphLock ::ₘ .errLock ::ₘ 0) := release_closes .crewLock rfl
  have h7 : Closes (release .wrapLock) _ (.graphLock ::ₘ .errLock ::ₘ 0) := release_closes .wrapLock rfl
  have h8 : Closes (release .graphLock) _ (.errLock ::ₘ 0) := release_closes .graphLock rfl
  have h9 : Closes closeErrs (.errLock ::ₘ 0) 0 := release_closes .errLock rfl
  have h := closes_comp (closes_comp (closes_comp (closes_comp (closes_comp (closes_comp (closes_comp (closes_comp h1 h2) h3) h4) h5) h6) h7) h8) h9
  clear h1 h2 h3 h4 h5 h6 h7 h8 h9
  have e : teardown F = fun s => closeErrs (release .graphLock (release .wrapLock (release .crewLock (release .packetLock (closeCthread F (closeGetset (release .killerLock (release .exit s)))))))) := by
    funext s
    unfold teardown
    rfl
  rw [e]
  exact h

/-! If no call fails, the error code doesn't change. -/

section Quiet

variable (hq : ∀ i, F.fails i = false)
include hq

theorem attempt_err (s : St) : (attempt F s).1.err = s.err := by
  unfold attempt; rw [if_neg (by simp [hq])]

theorem acquire_err (r : Res) (s : St) : (acquire F r s).1.err = s.err := by
  unfold acquire
  dsimp only
  split_ifs <;> exact attempt_err hq s

omit hq in
theorem release_err (r : Res) (s : St) : (release r s).err = s.err := by
  unfold release; split_ifs <;> rfl

theorem mutexType_err (a : Res) (s : St) : (mutexType F a s).1.err = s.err := by
  unfold mutexType
  dsimp only
  split_ifs <;> simp only [release_err, attempt_err hq, acquire_err hq]

theorem openLock_err (a l : Res) (s : St) : (openLock F a l s).1.err = s.err := by
  unfold openLock
  dsimp only
  split_ifs <;> simp only [release_err, mutexType_err hq, acquire_err hq]

omit hq in
theorem otherwise_err {f : St → St × Bool} {u : St → St} {m : St → St × Bool} (hf : ∀ s, (f s).1.err = s.err)
    (hu : ∀ s, (u s).err = s.err) (hm : ∀ s, (m s).1.err = s.err) (s : St) : (otherwise f u m s).1.err = s.err := by
  unfold otherwise
  dsimp only
  split_ifs
  · rw [hu, hf]
  · rw [hm, hf]

theorem openGetset_err (s : St) : (openGetset F s).1.err = s.err := by
  unfold openGetset
  refine otherwise_err (acquire_err hq _) (fun _ => rfl) ?_ s
  refine otherwise_err (acquire_err hq _) (fun _ => by simp only [release_err]) ?_
  refine otherwise_err (acquire_err hq _) (fun _ => by simp only [release_err]) ?_
  refine otherwise_err (acquire_err hq _) (fun _ => by simp only [release_err]) ?_
  refine otherwise_err (acquire_err hq _) (fun _ => by simp only [release_err]) ?_
  exact otherwise_err (acquire_err hq _) (fun _ => by simp only [release_err]) fun _ => rfl

theorem poolUp_err (todo i : Nat) (s : St) : (poolUp F todo i s).1.err = s.err := by
  induction todo generalizing i s with
  | zero => rfl
  | succ todo ih =>
    unfold poolUp
    dsimp only
    split_ifs
    · rw [ih, acquire_err hq]
    · exact acquire_err hq _ _

omit hq in
theorem poolDown_err (i : Nat) (s : St) : (poolDown i s).err = s.err := by
  induction i generalizing s with
  | zero => rfl
  | succ i ih => unfold poolDown; rw [ih, release_err]

omit hq in
theorem poolClose_err (todo i : Nat) (s : St) : (poolClose todo i s).err = s.err := by
  induction todo generalizing i s with
  | zero => rfl
  | succ todo ih => unfold poolClose; rw [ih, release_err]

theorem openCthread_err (s : St) : (openCthread F s).1.err = s.err := by
  unfold openCthread
  refine otherwise_err (mutexType_err hq _) (fun _ => rfl) (fun s => ?_) s
  dsimp only
  split_ifs <;> simp only [poolDown_err, release_err, acquire_err hq, poolUp_err hq]

omit hq in
theorem closeGetset_err (s : St) : (closeGetset s).err = s.err := by unfold closeGetset; simp only [release_err]

omit hq in
theorem closeCthread_err (s : St) : (closeCthread F s).err = s.err := by unfold closeCthread; simp only [release_err, poolClose_err]

theorem initialization_err (s : St) : (initialization F s).1.err = s.err := by
  unfold initialization
  refine otherwise_err (openLock_err hq _ _) (fun _ => rfl) ?_ s
  refine otherwise_err (openGetset_err hq) (fun _ => by simp only [closeErrs, release_err]) ?_
  refine otherwise_err (openCthread_err hq) (fun _ => by simp only [closeErrs, release_err, closeGetset_err]) ?_
  refine otherwise_err (acquire_err hq _) (fun _ => by simp only [closeErrs, release_err, closeGetset_err, closeCthread_err]) ?_
  refine otherwise_err (openLock_err hq _ _) (fun _ => by simp only [closeErrs, release_err, closeGetset_err, closeCthread_err]) ?_
  refine otherwise_err (acquire_err hq _) (fun _ => by simp only [closeErrs, release_err, closeGetset_err, closeCthread_err]) ?_
  refine otherwise_err (acquire_err hq _) (fun _ => by simp only [closeErrs, release_err, closeGetset_err, closeCthread_err]) ?_
  refine otherwise_err (acquire_err hq _) (fun _ => by simp only [closeErrs, release_err, closeGetset_err, closeCthread_err]) ?_
  exact otherwise_err (acquire_err hq _) (fun _ => by simp only [closeErrs, release_err, closeGetset_err, closeCthread_err]) fun _ => rfl

end Quiet

end Cru.Startup
