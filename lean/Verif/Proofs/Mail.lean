import Verif.Spec.Mail
import Verif.Proofs.Pool

/-!
# Lists of packets in memory
-/

namespace Cru.Mail

open Cru.Pool

variable {R I P : Type} [DecidableEq R] [DecidableEq I] [DecidableEq P]

theorem linked_congr {m m' : Loc I P → Option P} {e : Option P} {l : List P} (h : ∀ q ∈ l, m' (.next q) = m (.next q)) {x : Option P}
    (hl : Linked m e x l) : Linked m' e x l := by
  induction l generalizing x with
  | nil => exact hl
  | cons p l ih =>
    refine ⟨hl.1, ?_⟩
    rw [h p (by simp)]
    exact ih (fun q hq => h q (by simp [hq])) hl.2

theorem linked_append {m : Loc I P → Option P} {e x : Option P} {l l' : List P} :
    Linked m e x (l ++ l') ↔ ∃ y, Linked m y x l ∧ Linked m e y l' := by
  induction l generalizing x with
  | nil => simp [Linked]
  | cons p l ih =>
    simp only [List.cons_append, Linked, ih]
    constructor
    · rintro ⟨h, y, h1, h2⟩
      exact ⟨y, ⟨h, h1⟩, h2⟩
    · rintro ⟨y, ⟨h, h1⟩, h2⟩
      exact ⟨h, y, h1, h2⟩

theorem linked_head {m : Loc I P → Option P} {x : Option P} {l : List P} (h : Linked m none x l) : x = l.head? := by
  cases l with
  | nil => exact h
  | cons p l => exact h.1

/-! ## One thing at a time is moved -/

theorem distinct_transfer {f : Place R I → List P} (h : Distinct f) (a b : Place R I) : Distinct (transfer a b f) := by
  have e : ∀ c, transfer a b f c = if c = b then (if b = a then f a else f a ++ f b) else if c = a then [] else f c := by
    intro c
    unfold transfer
    simp only [Function.update_apply]
    split_ifs <;> simp
  refine ⟨fun c => ?_, fun c d p hc hd => ?_⟩
  · rw [e]
    split_ifs with h1 h2 h2
    · exact h.1 a
    · refine List.nodup_append.2 ⟨h.1 a, h.1 b, fun x hx y hy e => ?_⟩
      subst e
      exact h2 (h.2 _ _ _ hy hx)
    · exact List.nodup_nil
    · exact h.1 c
  · rw [e] at hc hd
    have key : ∀ c, p ∈ (if c = b then (if b = a then f a else f a ++ f b) else if c = a then [] else f c) →
        (c = b ∧ (p ∈ f a ∨ p ∈ f b)) ∨ (c ≠ b ∧ c ≠ a ∧ p ∈ f c) := by
      intro c hc
      split_ifs at hc with h1 h2 h2
      · exact .inl ⟨h1, .inl hc⟩
      · exact .inl ⟨h1, List.mem_append.1 hc⟩
      · simp at hc
      · exact .inr ⟨h1, h2, hc⟩
    rcases key c hc with ⟨hc1, hc2⟩ | ⟨hc1, hc2, hc3⟩ <;> rcases key d hd with ⟨hd1, hd2⟩ | ⟨hd1, hd2, hd3⟩
    · rw [hc1, hd1]
    · rcases hc2 with hc2 | hc2
      · exact absurd (h.2 _ _ _ hd3 hc2) hd2
      · exact absurd (h.2 _ _ _ hd3 hc2) hd1
    · rcases hd2 with hd2 | hd2
      · exact absurd (h.2 _ _ _ hc3 hd2) hc2
      · exact absurd (h.2 _ _ _ hc3 hd2) hc1
    · exact h.2 _ _ _ hc3 hd3

theorem distinct_head {f : Place R I → List P} (h : Distinct f) {a : Place R I} (b : Place R I) {p : P} {l : List P} (hp : f a = p :: l) :
    Distinct (transferHead a b p l f) := by
  have hn := h.1 a
  rw [hp] at hn
  have e : ∀ c, transferHead a b p l f c = if c = b then (if b = a then p :: l else p :: f b) else if c = a then l else f c := by
    intro c
    unfold transferHead
    simp only [Function.update_apply]
    split_ifs <;> simp
  have own : ∀ c q, q ∈ transferHead a b p l f c → (q = p ∧ c = b) ∨ (q ≠ p ∧ q ∈ f c) := by
    intro c q hc
    rw [e] at hc
    split_ifs at hc with h1 h2 h2
    · rcases List.mem_cons.1 hc with rfl | hc
      · exact .inl ⟨rfl, h1⟩
      · refine .inr ⟨fun e => (List.nodup_cons.1 hn).1 (e ▸ hc), ?_⟩
        rw [h1, h2, hp]
        exact List.mem_cons_of_mem _ hc
    · rcases List.mem_cons.1 hc with rfl | hc
      · exact .inl ⟨rfl, h1⟩
      · refine .inr ⟨fun e => h2 (h.2 _ _ p (e ▸ hc) (by simp [hp])), h1 ▸ hc⟩
    · refine .inr ⟨fun e => (List.nodup_cons.1 hn).1 (e ▸ hc), ?_⟩
      rw [h2, hp]
      exact List.mem_cons_of_mem _ hc
    · exact .inr ⟨fun e => h2 (h.2 _ _ p (e ▸ hc) (by simp [hp])), hc⟩
  refine ⟨fun c => ?_, fun c d q hc hd => ?_⟩
  · rw [e]
    split_ifs with h1 h2 h2
    · exact hn
    · exact List.nodup_cons.2 ⟨fun hb => h2 (h.2 _ _ p hb (by simp [hp])), h.1 b⟩
    · exact (List.nodup_cons.1 hn).2
    · exact h.1 c
  · rcases own c q hc with ⟨h1, h2⟩ | ⟨h1, h2⟩ <;> rcases own d q hd with ⟨h3, h4⟩ | ⟨h3, h4⟩
    · rw [h2, h4]
    · exact absurd h1 h3
    · exact absurd h3 h1
    · exact h.2 _ _ _ h2 h4

theorem mem_transfer {f : Place R I → List P} {a b : Place R I} {p : P} :
    (∃ c, p ∈ transfer a b f c) ↔ ∃ c, p ∈ f c := by
  have e : ∀ c, transfer a b f c = if c = b then (if b = a then f a else f a ++ f b) else if c = a then [] else f c := by
    intro c
    unfold transfer
    simp only [Function.update_apply]
    split_ifs <;> simp
  constructor
  · rintro ⟨c, hc⟩
    rw [e] at hc
    split_ifs at hc
    · exact ⟨_, hc⟩
    · rcases List.mem_append.1 hc with hc | hc <;> exact ⟨_, hc⟩
    · simp at hc
    · exact ⟨_, hc⟩
  · rintro ⟨c, hc⟩
    by_cases h1 : c = a
    · subst h1
      refine ⟨b, ?_⟩
      rw [e, if_pos rfl]
      split_ifs
      · exact hc
      · exact List.mem_append_left _ hc
    · by_cases h2 : c = b
      · subst h2
        exact ⟨c, by rw [e, if_pos rfl, if_neg h1]; exact List.mem_append_right _ hc⟩
      · exact ⟨c, by rw [e, if_neg h2, if_neg h1]; exact hc⟩

theorem mem_head {f : Place R I → List P} {a b : Place R I} {p q : P} {l : List P} (hp : f a = p :: l) :
    (∃ c, q ∈ transferHead a b p l f c) ↔ ∃ c, q ∈ f c := by
  have e : ∀ c, transferHead a b p l f c = if c = b then (if b = a then p :: l else p :: f b) else if c = a then l else f c := by
    intro c
    unfold transferHead
    simp only [Function.update_apply]
    split_ifs <;> simp
  constructor
  · rintro ⟨c, hc⟩
    rw [e] at hc
    split_ifs at hc
    · exact ⟨a, hp ▸ hc⟩
    · rcases List.mem_cons.1 hc with rfl | hc
      · exact ⟨a, by simp [hp]⟩
      · exact ⟨_, hc⟩
    · exact ⟨a, by rw [hp]; exact List.mem_cons_of_mem _ hc⟩
    · exact ⟨_, hc⟩
  · rintro ⟨c, hc⟩
    by_cases h1 : c = a
    · subst h1
      rw [hp] at hc
      rcases List.mem_cons.1 hc with rfl | hc
      · refine ⟨b, ?_⟩
        rw [e, if_pos rfl]
        split_ifs <;> simp
      · by_cases h2 : b = c
        · exact ⟨b, by rw [e, if_pos rfl, if_pos h2]; exact List.mem_cons_of_mem _ hc⟩
        · exact ⟨c, by rw [e, if_neg (Ne.symm h2), if_pos rfl]; exact hc⟩
    · by_cases h2 : c = b
      · subst h2
        exact ⟨c, by rw [e, if_pos rfl, if_neg h1]; exact List.mem_cons_of_mem _ hc⟩
      · exact ⟨c, by rw [e, if_neg h2, if_neg h1]; exact hc⟩

theorem act_distinct {t : Nat} {f f' : Place R I → List P} {c c' : Client R I P} (h : act t f c = some (c', f')) (hd : Distinct f) :
    Distinct f' ∧ ∀ p, (∃ a, p ∈ f' a) ↔ ∃ a, p ∈ f a := by
  cases c with
  | done => simp [act] at h
  | shift r r' k =>
    simp only [act, Option.some.injEq, Prod.mk.injEq] at h
    obtain ⟨-, rfl⟩ := h
    split_ifs
    · exact ⟨distinct_transfer hd _ _, fun _ => mem_transfer⟩
    · exact ⟨hd, fun _ => Iff.rfl⟩
  | take r d k =>
    simp only [act, Option.some.injEq, Prod.mk.injEq] at h
    obtain ⟨-, rfl⟩ := h
    split_ifs
    · exact ⟨distinct_transfer hd _ _, fun _ => mem_transfer⟩
    · exact ⟨hd, fun _ => Iff.rfl⟩
  | wait r d k =>
    simp only [act] at h
    split_ifs at h <;> (simp only [Option.some.injEq, Prod.mk.injEq] at h; obtain ⟨-, rfl⟩ := h)
    · exact ⟨hd, fun _ => Iff.rfl⟩
    · exact ⟨distinct_transfer hd _ _, fun _ => mem_transfer⟩
    · exact ⟨hd, fun _ => Iff.rfl⟩
  | move r into k =>
    simp only [act] at h
    split at h <;> (simp only [Option.some.injEq, Prod.mk.injEq] at h; obtain ⟨-, rfl⟩ := h)
    · exact ⟨hd, fun _ => Iff.rfl⟩
    · rename_i p l hp
      exact ⟨distinct_head hd _ hp, fun _ => mem_head hp⟩
  | send r d k =>
    simp only [act, Option.some.injEq, Prod.mk.injEq] at h
    obtain ⟨-, rfl⟩ := h
    exact ⟨distinct_transfer hd _ _, fun _ => mem_transfer⟩
  | undefer i k =>
    simp only [act, Option.some.injEq, Prod.mk.injEq] at h
    obtain ⟨-, rfl⟩ := h
    split_ifs
    · exact ⟨distinct_transfer hd _ _, fun _ => mem_transfer⟩
    · exact ⟨hd, fun _ => Iff.rfl⟩

theorem act_other {t u : Nat} {f f' : Place R I → List P} {c c' : Client R I P} (h : act t f c = some (c', f')) (hu : u ≠ t) (r : R) :
    f' (.var u r) = f (.var u r) := by
  have e : ∀ (a b : Place R I) (g : Place R I → List P), Place.var u r ≠ a → Place.var u r ≠ b → transfer a b g (.var u r) = g (.var u r) := by
    intro a b g h1 h2
    unfold transfer
    rw [Function.update_of_ne h2, Function.update_of_ne h1]
  cases c with
  | done => simp [act] at h
  | shift r1 r2 k =>
    simp only [act, Option.some.injEq, Prod.mk.injEq] at h
    obtain ⟨-, rfl⟩ := h
    split_ifs
    · exact e _ _ _ (by simp [hu]) (by simp [hu])
    · rfl
  | take r1 d k =>
    simp only [act, Option.some.injEq, Prod.mk.injEq] at h
    obtain ⟨-, rfl⟩ := h
    split_ifs
    · exact e _ _ _ (by simp) (by simp [hu])
    · rfl
  | wait r1 d k =>
    simp only [act] at h
    split_ifs at h <;> (simp only [Option.some.injEq, Prod.mk.injEq] at h; obtain ⟨-, rfl⟩ := h)
    · rfl
    · exact e _ _ _ (by simp) (by simp [hu])
    · rfl
  | move r1 into k =>
    simp only [act] at h
    split at h <;> (simp only [Option.some.injEq, Prod.mk.injEq] at h; obtain ⟨-, rfl⟩ := h)
    · rfl
    · unfold transferHead
      rw [Function.update_of_ne (by simp [hu]), Function.update_of_ne (by simp [hu])]
  | send r1 d k =>
    simp only [act, Option.some.injEq, Prod.mk.injEq] at h
    obtain ⟨-, rfl⟩ := h
    exact e _ _ _ (by simp [hu]) (by simp)
  | undefer i k =>
    simp only [act, Option.some.injEq, Prod.mk.injEq] at h
    obtain ⟨-, rfl⟩ := h
    split_ifs
    · exact e _ _ _ (by simp) (by simp)
    · rfl

/-! ## Where a worker is -/

/-- The pointers to the lists in local variables. -/
def hd (ρ : R → List P) : R → Option P := fun r => (ρ r).head?

/-- All lists in local variables are in order. -/
def Regs (m : Loc I P → Option P) (ρ : R → List P) : Prop := ∀ r, Linked m none (ρ r).head? (ρ r)

/-- The code of a worker that has client `c` still to do, with `ρ` in its local variables, the mutex of one port held or none, and possibly the
field `assigned` of one port not in order. -/
inductive Ph (n : Nat) (m : Loc I P → Option P) : Code (Loc I P) (Option P) I → Client R I P → (R → List P) → Option I → Option I → Prop
  | idle {c ρ} : Regs m ρ → Ph n m (compile n c (hd ρ)) c ρ none none
  | unlocking {c ρ i} : Regs m ρ → Ph n m (.unlock i (compile n c (hd ρ))) c ρ (some i) none
  | take1 {r d k ρ} : Regs m ρ → ρ r = [] →
      Ph n m (.load (.cell d) fun x => .store (.cell d) none <| .unlock d.port (compile n k (Function.update (hd ρ) r x))) (.take r d k) ρ
        (some d.port) none
  | take2 {r d k ρ x c} : Regs m ρ → ρ r = [] → m (.cell d) = x → (c = .take r d k ∨ (c = .wait r d k ∧ x ≠ none)) →
      Ph n m (.store (.cell d) none <| .unlock d.port (compile n k (Function.update (hd ρ) r x))) c ρ (some d.port) none
  | wait1 {r d k ρ} : Regs m ρ → ρ r = [] →
      Ph n m (.load (.cell d) fun x =>
        match x with
        | some _ => .store (.cell d) none <| .unlock d.port (compile n k (Function.update (hd ρ) r x))
        | none =>
          .unlock d.port <| .wrlock d.port <| .load (.cell d) fun y =>
            .store (.cell d) none <| .unlock d.port (compile n k (Function.update (hd ρ) r y))) (.wait r d k) ρ (some d.port) none
  | move1 {r into k ρ p l} : Regs m ρ → ρ r = p :: l →
      Ph n m (.store (.next p) none <| .load (.next p) fun y =>
        match y with
        | some _ => .done
        | none =>
          .store (.next p) (Function.update (hd ρ) r l.head? (into p))
            (compile n (k (some p)) (Function.update (Function.update (hd ρ) r l.head?) (into p) (some p)))) (.move r into k) ρ none none
  | move2 {r into k ρ p l} : (∀ r', r' ≠ r → Linked m none (ρ r').head? (ρ r')) → ρ r = p :: l → Linked m none l.head? l → m (.next p) = none →
      Ph n m (.load (.next p) fun y =>
        match y with
        | some _ => .done
        | none =>
          .store (.next p) (Function.update (hd ρ) r l.head? (into p))
            (compile n (k (some p)) (Function.update (Function.update (hd ρ) r l.head?) (into p) (some p)))) (.move r into k) ρ none none
  | move3 {r into k ρ p l} : (∀ r', r' ≠ r → Linked m none (ρ r').head? (ρ r')) → ρ r = p :: l → Linked m none l.head? l →
      Ph n m (.store (.next p) (Function.update (hd ρ) r l.head? (into p))
            (compile n (k (some p)) (Function.update (Function.update (hd ρ) r l.head?) (into p) (some p)))) (.move r into k) ρ none none
  | walk {r d k ρ p j q pre post} : Regs m ρ → (ρ r).head? = some p → ρ r = pre ++ q :: post → post.length < j →
      Ph n m (walk j q fun q =>
        .wrlock d.port <| .load (.cell d) fun x => .store (.next q) x <| .store (.cell d) (some p) <|
          .unlock d.port (compile n k (Function.update (hd ρ) r none))) (.send r d k) ρ none none
  | send1 {r d k ρ p q pre} : Regs m ρ → (ρ r).head? = some p → ρ r = pre ++ [q] →
      Ph n m (.wrlock d.port <| .load (.cell d) fun x => .store (.next q) x <| .store (.cell d) (some p) <|
          .unlock d.port (compile n k (Function.update (hd ρ) r none))) (.send r d k) ρ none none
  | send2 {r d k ρ p q pre} : Regs m ρ → (ρ r).head? = some p → ρ r = pre ++ [q] →
      Ph n m (.load (.cell d) fun x => .store (.next q) x <| .store (.cell d) (some p) <|
          .unlock d.port (compile n k (Function.update (hd ρ) r none))) (.send r d k) ρ (some d.port) none
  | send3 {r d k ρ p q pre x} : Regs m ρ → (ρ r).head? = some p → ρ r = pre ++ [q] → m (.cell d) = x →
      Ph n m (.store (.next q) x <| .store (.cell d) (some p) <|
          .unlock d.port (compile n k (Function.update (hd ρ) r none))) (.send r d k) ρ (some d.port) none
  | send4 {r d k ρ p} : (∀ r', r' ≠ r → Linked m none (ρ r').head? (ρ r')) → (ρ r).head? = some p → Linked m (m (.cell d)) (some p) (ρ r) →
      Ph n m (.store (.cell d) (some p) <|
          .unlock d.port (compile n k (Function.update (hd ρ) r none))) (.send r d k) ρ (some d.port) none
  | undefer1 {i k ρ} : Regs m ρ →
      Ph n m (.load (.cell (.assigned i)) fun x =>
        match x with
        | some _ => .unlock i (compile n k (hd ρ))
        | none => .load (.cell (.deferred i)) fun y => .store (.cell (.assigned i)) y <|
          match y with
          | none => .unlock i (compile n k (hd ρ))
          | some _ => .store (.cell (.deferred i)) none <| .unlock i (compile n k (hd ρ))) (.undefer i k) ρ (some i) none
  | undefer2 {i k ρ} : Regs m ρ → m (.cell (.assigned i)) = none →
      Ph n m (.load (.cell (.deferred i)) fun y => .store (.cell (.assigned i)) y <|
          match y with
          | none => .unlock i (compile n k (hd ρ))
          | some _ => .store (.cell (.deferred i)) none <| .unlock i (compile n k (hd ρ))) (.undefer i k) ρ (some i) none
  | undefer3 {i k ρ y} : Regs m ρ → m (.cell (.assigned i)) = none → m (.cell (.deferred i)) = y →
      Ph n m (.store (.cell (.assigned i)) y <|
          match y with
          | none => .unlock i (compile n k (hd ρ))
          | some _ => .store (.cell (.deferred i)) none <| .unlock i (compile n k (hd ρ))) (.undefer i k) ρ (some i) none
  | undefer4 {i k ρ} : Regs m ρ → m (.cell (.deferred i)) = m (.cell (.assigned i)) →
      Ph n m (.store (.cell (.deferred i)) none <| .unlock i (compile n k (hd ρ))) (.undefer i k) ρ (some i) (some i)

theorem regs_congr {m m' : Loc I P → Option P} {ρ : R → List P} (h : ∀ r, ∀ q ∈ ρ r, m' (.next q) = m (.next q)) (hr : Regs m ρ) : Regs m' ρ :=
  fun r => linked_congr (h r) (hr r)

/-- What the others do doesn't concern a worker. -/
theorem ph_congr {n : Nat} {m m' : Loc I P → Option P} {C : Code (Loc I P) (Option P) I} {c : Client R I P} {ρ : R → List P} {g b : Option I}
    (h : ∀ r, ∀ q ∈ ρ r, m' (.next q) = m (.next q)) (hc : ∀ i d, g = some i → d.port = i → m' (.cell d) = m (.cell d))
    (hp : Ph n m C c ρ g b) : Ph n m' C c ρ g b := by
  cases hp with
  | idle h1 => exact .idle (regs_congr h h1)
  | unlocking h1 => exact .unlocking (regs_congr h h1)
  | take1 h1 h2 => exact .take1 (regs_congr h h1) h2
  | take2 h1 h2 h3 h4 => exact .take2 (regs_congr h h1) h2 ((hc _ _ rfl rfl).trans h3) h4
  | wait1 h1 h2 => exact .wait1 (regs_congr h h1) h2
  | move1 h1 h2 => exact .move1 (regs_congr h h1) h2
  | move2 h1 h2 h3 h4 =>
    exact .move2 (fun r' hr => linked_congr (h r') (h1 r' hr)) h2 (linked_congr (fun q hq => h _ q (by rw [h2]; exact List.mem_cons_of_mem _ hq)) h3)
      ((h _ _ (by rw [h2]; exact List.mem_cons_self)).trans h4)
  | move3 h1 h2 h3 =>
    exact .move3 (fun r' hr => linked_congr (h r') (h1 r' hr)) h2 (linked_congr (fun q hq => h _ q (by rw [h2]; exact List.mem_cons_of_mem _ hq)) h3)
  | walk h1 h2 h3 h4 => exact .walk (regs_congr h h1) h2 h3 h4
  | send1 h1 h2 h3 => exact .send1 (regs_congr h h1) h2 h3
  | send2 h1 h2 h3 => exact .send2 (regs_congr h h1) h2 h3
  | send3 h1 h2 h3 h4 => exact .send3 (regs_congr h h1) h2 h3 ((hc _ _ rfl rfl).trans h4)
  | send4 h1 h2 h3 =>
    refine .send4 (fun r' hr => linked_congr (h r') (h1 r' hr)) h2 ?_
    rw [hc _ _ rfl rfl]
    exact linked_congr (h _) h3
  | undefer1 h1 => exact .undefer1 (regs_congr h h1)
  | undefer2 h1 h2 => exact .undefer2 (regs_congr h h1) ((hc _ _ rfl rfl).trans h2)
  | undefer3 h1 h2 h3 => exact .undefer3 (regs_congr h h1) ((hc _ _ rfl rfl).trans h2) ((hc _ _ rfl rfl).trans h3)
  | undefer4 h1 h2 => exact .undefer4 (regs_congr h h1) (by rw [hc _ _ rfl rfl, hc _ _ rfl rfl]; exact h2)

theorem broken_held {n : Nat} {m : Loc I P → Option P} {C : Code (Loc I P) (Option P) I} {c : Client R I P} {ρ : R → List P} {g b : Option I}
    (hp : Ph n m C c ρ g b) {i : I} (hb : b = some i) : g = some i := by
  cases hp <;> first | exact hb | simp at hb

end Cru.Mail
