import Verif.Model.Kill
import Mathlib.Tactic.Linarith

/-!
# C43, C44 and C45: kill requests
-/

namespace Cru.Kill

variable {T : Type} [DecidableEq T]

theorem Exec.append {s s' s'' : State T} {a b : List (Action T)} (h : Exec s a s') (h' : Exec s' b s'') :
    Exec s (a ++ b) s'' := by
  induction h with
  | nil => exact h'
  | cons h1 _ ih => exact .cons h1 (ih h')

theorem Exec.split {s s'' : State T} {a b : List (Action T)} (h : Exec s (a ++ b) s'') :
    ∃ s', Exec s a s' ∧ Exec s' b s'' := by
  induction a generalizing s with
  | nil => exact ⟨s, .nil _, h⟩
  | cons x a ih =>
    cases h with
    | cons h1 h2 =>
      obtain ⟨s', h3, h4⟩ := ih h2
      exact ⟨s', .cons h1 h3, h4⟩

/-- The switch is connected exactly while an operation is under way, and remembers a request only if it is not. -/
structure Inv (s : State T) : Prop where
  attached : ∀ r, s.killed = some r ↔ ((∃ t, s.op = .enabling r t) ∨ s.op = .running r)
  idle : s.killed ≠ none → s.killable = false

theorem init_inv : Inv (init : State T) := ⟨by simp [init], by simp [init]⟩

theorem step_inv {s s' : State T} {a : Action T} (h : Inv s) (hs : step s a = .next s') : Inv s' := by
  cases a with
  | attach r =>
    simp only [step] at hs
    split at hs
    · cases hs
      exact ⟨by intro r'; simp, by simp⟩
    · cases hs
  | enabled =>
    simp only [step] at hs
    split at hs
    · next r t ho =>
      cases hs
      refine ⟨?_, h.idle⟩
      intro r'
      have := h.attached r'
      rw [ho] at this
      simpa using this
    · cases hs
  | detach =>
    simp only [step] at hs
    split at hs
    · cases hs; exact ⟨by simp, by simp⟩
    · cases hs
  | free r =>
    simp only [step] at hs
    split at hs
    · cases hs
    · cases hs; exact ⟨h.attached, h.idle⟩
  | request t =>
    simp only [step] at hs
    split at hs
    · split at hs
      · next hk => cases hs; exact ⟨h.attached, by simp [hk]⟩
      · cases hs; exact ⟨h.attached, by simp⟩
    · cases hs
  | evaluate t =>
    simp only [step] at hs
    split at hs
    · cases hs; exact ⟨h.attached, h.idle⟩
    · cases hs
  | write t =>
    simp only [step] at hs
    split at hs
    · cases hs; exact ⟨h.attached, h.idle⟩
    · split at hs
      · cases hs
      · cases hs; exact ⟨h.attached, h.idle⟩
    · cases hs

theorem exec_inv {s s' : State T} {as : List (Action T)} (h : Inv s) (he : Exec s as s') : Inv s' := by
  induction he with
  | nil => exact h
  | cons h1 _ ih => exact ih (step_inv h h1)

/-- Once set, a kill flag stays set. -/
theorem flag_mono {s s' : State T} {as : List (Action T)} (he : Exec s as s') (r : Nat) (h : s.flag r = true) :
    s'.flag r = true := by
  induction he with
  | nil => exact h
  | @cons s s1 s2 a as h1 _ ih =>
    apply ih
    cases a <;> simp only [step] at h1 <;> (repeat' split at h1) <;> cases h1 <;> simp only [] at * <;>
      first
        | exact h
        | (split
           · rw [Function.update_apply]; split <;> simp_all
           · exact h)
        | (rw [Function.update_apply]; split <;> simp_all)

/-- Whether an action is the connection or the disconnection of an operation. -/
def Action.isAttach : Action T → Prop
  | .attach _ => True
  | _ => False

/-- See `isAttach`. -/
def Action.isDetach : Action T → Prop
  | .detach => True
  | _ => False

/-- C43, first part.  A request made while no operation is under way is remembered whatever else happens, and the next
operation that starts is killed. -/
theorem C43_remembered {s0 s1 s2 : State T} {pre mid post : List (Action T)} {t : T} {r : Nat}
    (h0 : Exec init pre s0) (hout : s0.killed = none)
    (h1 : Exec s0 (.request t :: mid) s1) (hmid : ∀ a ∈ mid, ¬ a.isAttach)
    (h2 : Exec s1 (.attach r :: post) s2) (hrun : .enabled ∈ post) :
    s2.flag r = true := by
  -- after the request, the switch remembers it
  have hk : s1.killable = true ∧ s1.killed = none := by
    cases h1 with
    | @cons _ s' _ _ _ ha hb =>
      have hs' : s'.killable = true ∧ s'.killed = none := by
        simp only [step] at ha
        split at ha
        · simp only [hout] at ha; cases ha; exact ⟨rfl, rfl⟩
        · cases ha
      have hi : Inv s' := step_inv (exec_inv init_inv h0) ha
      clear ha h2
      revert hs' hi
      induction hb with
      | nil => intro h _; exact h
      | @cons s s'' _ a as hc _ ih =>
        intro hs hi
        refine ih (fun a ha => hmid a (List.mem_cons_of_mem _ ha)) ?_ (step_inv hi hc)
        have hna := hmid a (by simp)
        cases a with
        | attach r => exact absurd trivial hna
        | enabled => simp only [step] at hc; split at hc <;> cases hc; exact hs
        | detach => simp only [step] at hc; split at hc <;> cases hc; exact ⟨hs.1, rfl⟩
        | free r => simp only [step] at hc; split at hc <;> cases hc; exact hs
        | request t =>
          simp only [step] at hc
          split at hc
          · simp only [hs.2] at hc; cases hc; exact ⟨rfl, rfl⟩
          · cases hc
        | evaluate t => simp only [step] at hc; split at hc <;> cases hc; exact hs
        | write t =>
          simp only [step] at hc
          split at hc
          · cases hc; exact hs
          · split at hc <;> cases hc; exact hs
          · cases hc
  cases h2 with
  | @cons _ s' _ _ _ ha hb =>
    have hs' : s'.op = .enabling r true := by
      simp only [step] at ha
      split at ha
      · cases ha; simp [hk.1]
      · cases ha
    clear ha
    revert hs' hrun
    induction hb with
    | nil => intro h; simp at h
    | @cons s s'' _ a as hc hd ih =>
      intro hrun hs
      cases a with
      | enabled =>
        simp only [step, hs] at hc
        cases hc
        exact flag_mono hd r (by simp)
      | attach r' => simp [step, hs] at hc
      | detach => simp [step, hs] at hc
      | free r' =>
        refine ih (by simpa using hrun) ?_
        simp only [step] at hc; split at hc <;> cases hc; exact hs
      | request t =>
        refine ih (by simpa using hrun) ?_
        simp only [step] at hc
        repeat' split at hc
        all_goals cases hc
        all_goals exact hs
      | evaluate t =>
        refine ih (by simpa using hrun) ?_
        simp only [step] at hc; split at hc <;> cases hc; exact hs
      | write t =>
        refine ih (by simpa using hrun) ?_
        simp only [step] at hc
        repeat' split at hc
        all_goals cases hc
        all_goals exact hs

/-- C43, second part.  A request made during an operation sets the kill flag of that operation whatever else happens
meanwhile, provided the operation is still under way when `cru_kill` looks up which one it is. -/
theorem C43_during {s0 s1 s2 s3 : State T} {pre mid mid' : List (Action T)} {t : T} {r : Nat}
    (h0 : Exec init pre s0) (hr : s0.killed = some r)
    (h1 : Exec s0 (.request t :: mid) s1) (h2 : Exec s1 (.evaluate t :: mid') s2)
    (hd : ∀ a ∈ mid, ¬ a.isDetach) (hm : .write t ∉ mid')
    (h3 : step s2 (.write t) = .next s3) :
    s3.flag r = true := by
  have hi0 : Inv s0 := exec_inv init_inv h0
  -- without a disconnection the switch stays connected to the same operation
  have keep : ∀ (as : List (Action T)) (s s' : State T), Inv s → s.killed = some r → (∀ a ∈ as, ¬ a.isDetach) →
      Exec s as s' → s'.killed = some r := by
    intro as
    induction as with
    | nil => intro s s' _ h _ he; cases he; exact h
    | cons a as ih =>
      intro s s' hi h hnd he
      cases he with
      | @cons _ s'' _ _ _ ha hb =>
        refine ih s'' s' (step_inv hi ha) ?_ (fun x hx => hnd x (List.mem_cons_of_mem _ hx)) hb
        have hna := hnd a (by simp)
        cases a with
        | detach => exact absurd trivial hna
        | attach r' =>
          simp only [step] at ha
          split at ha
          · next hc =>
            have := (hi.attached r).1 h
            rw [hc.1] at this
            simp at this
          · cases ha
        | enabled => simp only [step] at ha; split at ha <;> cases ha; exact h
        | free r' => simp only [step] at ha; split at ha <;> cases ha; exact h
        | request t =>
          simp only [step] at ha
          repeat' split at ha
          all_goals cases ha
          all_goals exact h
        | evaluate t => simp only [step] at ha; split at ha <;> cases ha; exact h
        | write t =>
          simp only [step] at ha
          repeat' split at ha
          all_goals cases ha
          all_goals exact h
  have h1' : s1.killed = some r := by
    refine keep (.request t :: mid) s0 s1 hi0 hr ?_ h1
    intro a ha
    rcases List.mem_cons.1 ha with rfl | ha
    · exact fun h => h
    · exact hd a ha
  -- the pointer read is kept until it is used
  cases h2 with
  | @cons _ s' _ _ _ ha hb =>
    have hp : s'.kill t = .pointer (some r) := by
      simp only [step] at ha
      split at ha
      · cases ha; simp [h1']
      · cases ha
    have hp2 : s2.kill t = .pointer (some r) := by
      clear ha h3
      revert hp hm
      induction hb with
      | nil => intro _ h; exact h
      | @cons s s'' _ a as hc _ ih =>
        intro hm hp
        refine ih (fun hx => hm (List.mem_cons_of_mem _ hx)) ?_
        cases a with
        | attach r' => simp only [step] at hc; split at hc <;> cases hc; exact hp
        | enabled => simp only [step] at hc; split at hc <;> cases hc; exact hp
        | detach => simp only [step] at hc; split at hc <;> cases hc; exact hp
        | free r' => simp only [step] at hc; split at hc <;> cases hc; exact hp
        | request u =>
          simp only [step] at hc
          have hne : s.kill u = .outside → t ≠ u := by rintro h rfl; rw [hp] at h; cases h
          split at hc
          · next ho =>
            split at hc
            · cases hc; exact hp
            · cases hc; simp only [Function.update_of_ne (hne ho)]; exact hp
          · cases hc
        | evaluate u =>
          simp only [step] at hc
          have hne : s.kill u = .observed → t ≠ u := by rintro h rfl; rw [hp] at h; cases h
          split at hc
          · next ho => cases hc; simp only [Function.update_of_ne (hne ho)]; exact hp
          · cases hc
        | write u =>
          have hne : t ≠ u := by
            rintro rfl; exact hm (by simp)
          simp only [step] at hc
          split at hc
          · cases hc; simp only [Function.update_of_ne hne]; exact hp
          · split at hc
            · cases hc
            · cases hc; simp only [Function.update_of_ne hne]; exact hp
          · cases hc
    simp only [step, hp2] at h3
    split at h3
    · cases h3
    · cases h3; simp

/-- How many requests have been made. -/
def requests (as : List (Action T)) : Nat := as.countP fun | .request _ => true | _ => false

/-- The requests that have not taken effect yet, apart from those in the hands of threads. -/
def remembered (s : State T) : Nat :=
  (if s.killable then 1 else 0) + (match s.op with | .enabling _ true => 1 | _ => 0)

/-- Every operation killed and every request not yet in effect is paid for by a request. -/
def Paid (n : Nat) (s : State T) : Prop :=
  ∀ (rs : List Nat) (ts : List T), rs.Nodup → ts.Nodup → (∀ r ∈ rs, s.flag r = true) → (∀ t ∈ ts, s.kill t ≠ .outside) →
    rs.length + ts.length + remembered s ≤ n

theorem length_erase_le {α : Type} [DecidableEq α] (l : List α) (a : α) : l.length ≤ (l.erase a).length + 1 := by
  rw [List.length_erase]; split <;> omega

theorem step_paid {n : Nat} {s s' : State T} {a : Action T} (hi : Inv s) (h : Paid n s) (hs : step s a = .next s') :
    Paid (n + requests [a]) s' := by
  intro rs ts hrs hts hf hk
  cases a with
  | attach r =>
    simp only [step] at hs
    split at hs
    · next hc =>
      cases hs
      have := h rs ts hrs hts hf hk
      simp only [remembered, hc.1] at this ⊢
      cases hb : s.killable <;> simp only [hb] at this ⊢ <;> simp [requests] at this ⊢ <;> omega
    · cases hs
  | enabled =>
    simp only [step] at hs
    split at hs
    · next r t ho =>
      cases hs
      cases t with
      | false =>
        have := h rs ts hrs hts (by simpa using hf) hk
        simp only [remembered, ho] at this ⊢
        simp only [requests, List.countP_nil, List.countP_cons] at this ⊢
        simp at this ⊢; omega
      | true =>
        have := h (rs.erase r) ts (hrs.erase r) hts (by
          intro x hx
          have hx' := (hrs.mem_erase_iff).1 hx
          have := hf x hx'.2
          simpa [Function.update_of_ne hx'.1] using this) hk
        have hl := length_erase_le rs r
        simp only [remembered, ho] at this ⊢
        simp [requests] at this ⊢; omega
    · cases hs
  | detach =>
    simp only [step] at hs
    split at hs
    · next r ho =>
      cases hs
      have := h rs ts hrs hts hf hk
      simp only [remembered, ho] at this ⊢
      simpa [requests] using this
    · cases hs
  | free r =>
    simp only [step] at hs
    split at hs
    · cases hs
    · cases hs
      have := h rs ts hrs hts hf hk
      simpa [requests, remembered] using this
  | request t =>
    simp only [step] at hs
    split at hs
    · split at hs
      · cases hs
        have := h rs ts hrs hts hf hk
        simp only [remembered] at this ⊢
        simp only [requests, List.countP_cons, List.countP_nil, if_true] at this ⊢
        split at this <;> omega
      · next r hr =>
        cases hs
        have hkf := hi.idle (by rw [hr]; simp)
        have := h rs (ts.erase t) hrs (hts.erase t) hf (by
          intro x hx
          have hx' := (hts.mem_erase_iff).1 hx
          have := hk x hx'.2
          simpa [Function.update_of_ne hx'.1] using this)
        have hl := length_erase_le ts t
        simp only [remembered, hkf] at this ⊢
        simp only [requests, List.countP_cons, List.countP_nil, if_true] at this ⊢
        omega
    · cases hs
  | evaluate t =>
    simp only [step] at hs
    split at hs
    · next ho =>
      cases hs
      have := h rs ts hrs hts hf (by
        intro x hx
        by_cases hxt : x = t
        · subst hxt; rw [ho]; simp
        · have := hk x hx
          simpa [Function.update_of_ne hxt] using this)
      simpa [requests, remembered] using this
    · cases hs
  | write t =>
    simp only [step] at hs
    split at hs
    · next ho =>
      cases hs
      have := h rs ts hrs hts hf (by
        intro x hx
        by_cases hxt : x = t
        · subst hxt; rw [ho]; simp
        · have := hk x hx
          simpa [Function.update_of_ne hxt] using this)
      simpa [requests, remembered] using this
    · next r ho =>
      split at hs
      · cases hs
      · cases hs
        have htn : t ∉ ts := by intro ht; have := hk t ht; simp at this
        have := h (rs.erase r) (t :: ts) (hrs.erase r) (List.nodup_cons.2 ⟨htn, hts⟩) (by
          intro x hx
          have hx' := (hrs.mem_erase_iff).1 hx
          have := hf x hx'.2
          simpa [Function.update_of_ne hx'.1] using this) (by
          intro x hx
          by_cases hxt : x = t
          · subst hxt; rw [ho]; simp
          · have := hk x (by simpa [hxt] using hx)
            simpa [Function.update_of_ne hxt] using this)
        have hl := length_erase_le rs r
        simp only [requests, remembered, List.length_cons, List.countP_cons, List.countP_nil] at this ⊢
        simp at this ⊢
        omega
    · cases hs

/-- C43, third part.  However calls interleave, at most as many operations are killed as requests are made.  So one request
never kills two operations, and without a request connecting and disconnecting the switch kills nothing. -/
theorem C43_no_spurious_kill {s : State T} {as : List (Action T)} (h : Exec init as s) (rs : List Nat) (hrs : rs.Nodup)
    (hk : ∀ r ∈ rs, s.flag r = true) : rs.length ≤ requests as := by
  have key : ∀ (as : List (Action T)) (n : Nat) (s s' : State T), Exec s as s' → Inv s → Paid n s →
      Paid (n + requests as) s' := by
    intro as n s s' he
    induction he generalizing n with
    | nil => intro _ h; simpa [requests] using h
    | @cons s s'' _ a as hc _ ih =>
      intro hi hp
      have h2 := ih (n + requests [a]) (step_inv hi hc) (step_paid hi hp hc)
      have : n + requests [a] + requests as = n + requests (a :: as) := by
        simp only [requests, List.countP_cons, List.countP_nil]; omega
      rwa [this] at h2
  have h0 : Paid 0 (init : State T) := by
    intro rs ts _ _ hf hk
    have h1 : rs = [] := List.eq_nil_iff_forall_not_mem.2 fun r hr => by simpa [init] using hf r hr
    have h2 : ts = [] := List.eq_nil_iff_forall_not_mem.2 fun t ht => by simpa [init] using hk t ht
    simp [h1, h2, remembered, init]
  have := key as 0 _ _ h init_inv h0 rs [] hrs List.nodup_nil hk (by simp)
  simp only [List.length_nil] at this
  omega

/-- An execution in which a request is remembered, and the next operation killed. -/
example : ∃ s : State (Fin 1), Exec init [.request 0, .attach 7, .enabled] s ∧ s.flag 7 = true ∧ s.killable = false :=
  ⟨_, .cons rfl (.cons rfl (.cons rfl (.nil _))), rfl, rfl⟩

/-- An execution in which a request is made during an operation, which is killed. -/
example : ∃ s : State (Fin 2), Exec init [.attach 7, .enabled, .request 0, .evaluate 0, .write 0, .detach] s ∧
    s.flag 7 = true :=
  ⟨_, .cons rfl (.cons rfl (.cons rfl (.cons rfl (.cons rfl (.cons rfl (.nil _)))))), rfl⟩

/-! ## C44 -/

/-- C44.  A request made during operation 1 is lost: `cru_kill` has returned, no operation's flag is set, and the request is
not remembered either, so that operation 2 runs to the end. -/
theorem C44_request_lost :
    ∃ s : State (Fin 1), Exec init [.attach 1, .enabled, .request 0, .detach, .evaluate 0, .write 0, .attach 2, .enabled,
        .detach] s ∧
      (∀ r, s.flag r = false) ∧ s.killable = false ∧ s.kill 0 = .outside :=
  ⟨_, .cons rfl (.cons rfl (.cons rfl (.cons rfl (.cons rfl (.cons rfl (.cons rfl (.cons rfl (.cons rfl (.nil _))))))))),
    fun _ => rfl, rfl, rfl⟩

/-- C44.  A request made during operation 1, which finishes, kills operation 2. -/
theorem C44_wrong_operation_killed :
    ∃ s : State (Fin 1), Exec init [.attach 1, .enabled, .request 0, .detach, .attach 2, .enabled, .evaluate 0, .write 0] s ∧
      s.flag 1 = false ∧ s.flag 2 = true :=
  ⟨_, .cons rfl (.cons rfl (.cons rfl (.cons rfl (.cons rfl (.cons rfl (.cons rfl (.cons rfl (.nil _)))))))), rfl, rfl⟩

/-- C44.  A request made during an operation that finishes writes to a router that has been freed. -/
theorem C44_write_after_free :
    ∃ s : State (Fin 1), Exec init [.attach 1, .enabled, .request 0, .evaluate 0, .detach, .free 1] s ∧
      step s (.write 0) = .undefined :=
  ⟨_, .cons rfl (.cons rfl (.cons rfl (.cons rfl (.cons rfl (.cons rfl (.nil _)))))), rfl⟩

/-! ## C45 -/

theorem poll_counter (sample : Nat) (field : Bool) : (poll sample field).1 = (sample + 1) % 2 ^ 32 := rfl

theorem poll_value (sample : Nat) (field : Bool) :
    (poll sample field).2 = if (sample + 1) % 32 = 0 then field else false := by
  have h1 : ((sample + 1) % 2 ^ 32) &&& 0x1f = (sample + 1) % 32 := by
    have : (0x1f : Nat) = 2 ^ 5 - 1 := rfl
    rw [this, Nat.and_two_pow_sub_one_eq_mod]
    omega
  simp only [poll, h1]
  by_cases h : (sample + 1) % 32 = 0
  · rw [if_neg (by simpa using h), if_pos h]
  · rw [if_pos h, if_neg h]

/-- Unless the worker has noticed already, its counter has counted the messages. -/
theorem loop_counter (sample : Nat) (field : Nat → Bool) (n : Nat) (h : (loop sample field n).2 = false) :
    (loop sample field n).1 % 32 = (sample + n) % 32 := by
  induction n with
  | zero => simp [loop]
  | succ n ih =>
    simp only [loop] at h ⊢
    split at h
    · next h' => rw [h'] at h; cases h
    · next h' =>
      have h' : (loop sample field n).2 = false := by simpa using h'
      rw [if_neg (by simp [h']), poll_counter]
      have := ih h'
      omega

/-- Once noticed, a kill stays noticed. -/
theorem loop_mono (sample : Nat) (field : Nat → Bool) (m k : Nat) (h : (loop sample field m).2 = true) :
    (loop sample field (m + k)).2 = true := by
  induction k with
  | zero => exact h
  | succ k ih => rw [← Nat.add_assoc]; simp [loop, ih]

/-- C45.  Whatever the counter starts from and whenever the flag is set, a worker has noticed it at the latest when it has
received 32 more messages. -/
theorem C45_noticed_within_32 (sample : Nat) (field : Nat → Bool) (m : Nat)
    (hf : ∀ i, m ≤ i → field i = true) : (loop sample field (m + 32)).2 = true := by
  -- one of the next 32 messages makes the counter a multiple of 32
  obtain ⟨k, hk, hz⟩ : ∃ k < 32, (sample + (m + k) + 1) % 32 = 0 := ⟨31 - (sample + m) % 32, by omega, by omega⟩
  cases hn : (loop sample field (m + k)).2 with
  | true =>
    have := loop_mono sample field (m + k) (32 - k) hn
    rwa [show m + k + (32 - k) = m + 32 by omega] at this
  | false =>
    have hc := loop_counter sample field (m + k) hn
    have hs : (loop sample field (m + k + 1)).2 = true := by
      simp only [loop, hn]
      simp only [Bool.false_eq_true, if_false, poll_value]
      rw [if_pos (by omega)]
      exact hf _ (by omega)
    have := loop_mono sample field (m + k + 1) (32 - (k + 1)) hs
    rwa [show m + k + 1 + (32 - (k + 1)) = m + 32 by omega] at this

/-- C45.  The bound is exact: with a counter of zero and the flag set from the start, 31 messages are not enough. -/
theorem C45_bound_is_exact : (loop 0 (fun _ => true) 31).2 = false := by decide

/-- C45.  And a worker never believes to be killed when the flag has not been set. -/
theorem C45_not_without_cause (sample : Nat) (field : Nat → Bool) (n : Nat) (hf : ∀ i < n, field i = false) :
    (loop sample field n).2 = false := by
  induction n with
  | zero => rfl
  | succ n ih =>
    have := ih (fun i hi => hf i (by omega))
    simp only [loop, this, Bool.false_eq_true, if_false, poll_value, hf n (by omega)]
    split <;> rfl

/-- A counter about to wrap around. -/
example : (loop (2 ^ 32 - 3) (fun i => decide (1 ≤ i)) 3).2 = true := by decide

end Cru.Kill
