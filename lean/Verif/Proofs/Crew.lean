import Verif.Model.Crew
import Mathlib.Data.Multiset.Range
import Mathlib.Data.Fintype.Card
import Mathlib.Algebra.BigOperators.Group.Finset.Basic
import Mathlib.Algebra.Order.BigOperators.Group.Finset

namespace Cru.Crew

variable {T : Type} [DecidableEq T]

structure Inv (s : State T) : Prop where
  count : s.count = s.reserve.length
  small : s.count ≤ limit
  rnodup : s.reserve.Nodup
  fnodup : s.freed.Nodup
  apart : ∀ c, c ∈ s.reserve → c ∉ s.freed
  lone : ∀ t c h, s.used t = some (c, h) → c ∉ s.reserve ∧ c ∉ s.freed
  own : ∀ t u c h h', s.used t = some (c, h) → s.used u = some (c, h') → t = u
  all : ∀ c, c < s.made ↔ c ∈ s.reserve ∨ c ∈ s.freed ∨ ∃ t h, s.used t = some (c, h)

theorem init_inv : Inv (init : State T) := by
  refine ⟨rfl, Nat.zero_le _, List.nodup_nil, Multiset.nodup_zero, by simp [init], by simp [init], by simp [init], by simp [init]⟩

theorem add_reserve {s : State T} (h : Inv s) (hc : s.count < limit) :
    Inv { s with made := s.made + 1, reserve := s.made :: s.reserve, count := s.count + 1 } := by
  have hnew : s.made ∉ s.reserve ∧ s.made ∉ s.freed ∧ ∀ t h, s.used t ≠ some (s.made, h) := by
    have := mt (h.all s.made).mpr (Nat.lt_irrefl _)
    push Not at this
    exact this
  refine ⟨by simp [h.count], hc, List.nodup_cons.mpr ⟨hnew.1, h.rnodup⟩, h.fnodup, ?_, ?_, h.own, ?_⟩
  · intro c hm
    rcases List.mem_cons.mp hm with rfl | hm
    · exact hnew.2.1
    · exact h.apart c hm
  · intro t c b hu
    obtain ⟨h1, h2⟩ := h.lone t c b hu
    refine ⟨fun hm => ?_, h2⟩
    rcases List.mem_cons.mp hm with rfl | hm
    · exact hnew.2.2 t b hu
    · exact h1 hm
  · intro c
    have := h.all c
    show c < s.made + 1 ↔ _
    rw [Nat.lt_succ_iff_lt_or_eq, this]
    simp only [List.mem_cons]
    constructor
    · rintro ((h | h | h) | h)
      exacts [.inl (.inr h), .inr (.inl h), .inr (.inr h), .inl (.inl h)]
    · rintro ((h | h) | h | h)
      exacts [.inr h, .inl (.inl h), .inl (.inr (.inl h)), .inl (.inr (.inr h))]

theorem refill_inv (l : Nat) {s : State T} (h : Inv s) : Inv (refill l s) := by
  induction l generalizing s with
  | zero => exact h
  | succ l ih =>
    rw [refill]
    by_cases hc : s.count < limit
    · rw [if_pos hc]; exact ih (add_reserve h hc)
    · rw [if_neg hc]; exact h

theorem refill_used (l : Nat) (s : State T) : (refill l s).used = s.used ∧ (refill l s).freed = s.freed := by
  induction l generalizing s with
  | zero => exact ⟨rfl, rfl⟩
  | succ l ih =>
    rw [refill]
    by_cases hc : s.count < limit
    · rw [if_pos hc]; exact ih _
    · rw [if_neg hc]; exact ⟨rfl, rfl⟩

theorem refill_count (l : Nat) (s : State T) (hc : s.count ≤ limit) : (refill l s).count = min limit (s.count + l) := by
  induction l generalizing s with
  | zero => simp only [refill]; omega
  | succ l ih =>
    rw [refill]
    by_cases h : s.count < limit
    · rw [if_pos h, ih _ (by exact h)]; dsimp only; omega
    · rw [if_neg h]; omega

theorem update_cases {s : State T} {t u : T} {x : Option (Nat × Bool)} {y : Nat × Bool} (h : Function.update s.used t x u = some y) :
    (u = t ∧ x = some y) ∨ (u ≠ t ∧ s.used u = some y) := by
  by_cases hu : u = t
  · subst hu; left; simpa using h
  · right; exact ⟨hu, by simpa [hu] using h⟩

theorem step_inv {s s' : State T} {a : Action T} (h : Inv s) (hs : step s a = some s') : Inv s' := by
  cases a with
  | replenish t l =>
    simp only [step] at hs
    split_ifs at hs
    injection hs with hs
    subst hs
    exact refill_inv l h
  | recruit t mem =>
    by_cases hu : s.used t = none
    swap
    · simp [step, hu] at hs
    simp only [step, hu, if_true] at hs
    have hnone : ∀ c b, s.used t ≠ some (c, b) := by intro c b; rw [hu]; simp
    cases mem with
    | true =>
      injection hs with hs
      subst hs
      have hnew : s.made ∉ s.reserve ∧ s.made ∉ s.freed ∧ ∀ t h, s.used t ≠ some (s.made, h) := by
        have := mt (h.all s.made).mpr (Nat.lt_irrefl _)
        push Not at this
        exact this
      refine ⟨h.count, h.small, h.rnodup, h.fnodup, h.apart, ?_, ?_, ?_⟩
      · intro u c b hub
        rcases update_cases hub with ⟨_, hx⟩ | ⟨_, hx⟩
        · simp only [Option.some.injEq, Prod.mk.injEq] at hx
          rw [← hx.1]
          exact ⟨hnew.1, hnew.2.1⟩
        · exact h.lone u c b hx
      · intro u v c b b' hub hvb
        rcases update_cases hub with ⟨rfl, hx⟩ | ⟨_, hx⟩ <;> rcases update_cases hvb with ⟨rfl, hy⟩ | ⟨_, hy⟩
        · rfl
        · simp only [Option.some.injEq, Prod.mk.injEq] at hx
          rw [← hx.1] at hy
          exact absurd hy (hnew.2.2 _ _)
        · simp only [Option.some.injEq, Prod.mk.injEq] at hy
          rw [← hy.1] at hx
          exact absurd hx (hnew.2.2 _ _)
        · exact h.own u v c b b' hx hy
      · intro c
        show c < s.made + 1 ↔ _
        rw [Nat.lt_succ_iff_lt_or_eq, h.all c]
        constructor
        · rintro ((hm | hm | ⟨u, b, hm⟩) | rfl)
          · exact .inl hm
          · exact .inr (.inl hm)
          · refine .inr (.inr ⟨u, b, ?_⟩)
            have : u ≠ t := by rintro rfl; exact hnone _ _ hm
            simp [this, hm]
          · exact .inr (.inr ⟨t, false, by simp⟩)
        · rintro (hm | hm | ⟨u, b, hm⟩)
          · exact .inl (.inl hm)
          · exact .inl (.inr (.inl hm))
          · rcases update_cases hm with ⟨_, hx⟩ | ⟨_, hx⟩
            · simp only [Option.some.injEq, Prod.mk.injEq] at hx
              exact .inr hx.1.symm
            · exact .inl (.inr (.inr ⟨u, b, hx⟩))
    | false =>
      cases hr : s.reserve with
      | nil => simp only [hr] at hs; injection hs with hs; subst hs; exact h
      | cons c r =>
        simp only [hr] at hs
        split_ifs at hs with h0
        injection hs with hs
        subst hs
        have hnd := h.rnodup
        rw [hr] at hnd
        obtain ⟨hcr, hnd⟩ := List.nodup_cons.mp hnd
        have hcf := h.apart c (by rw [hr]; exact List.mem_cons_self)
        refine ⟨?_, ?_, hnd, h.fnodup, ?_, ?_, ?_, ?_⟩
        · have := h.count; rw [hr] at this; simp only [List.length_cons] at this; dsimp only; omega
        · have := h.small; dsimp only; omega
        · intro d hd; exact h.apart d (by rw [hr]; exact List.mem_cons_of_mem _ hd)
        · intro u d b hub
          rcases update_cases hub with ⟨_, hx⟩ | ⟨_, hx⟩
          · simp only [Option.some.injEq, Prod.mk.injEq] at hx
            rw [← hx.1]
            exact ⟨hcr, hcf⟩
          · obtain ⟨h1, h2⟩ := h.lone u d b hx
            rw [hr] at h1
            exact ⟨fun hm => h1 (List.mem_cons_of_mem _ hm), h2⟩
        · have hcu : ∀ u b, s.used u ≠ some (c, b) := by
            intro u b hub
            have := (h.lone u c b hub).1
            rw [hr] at this
            exact this List.mem_cons_self
          intro u v d b b' hub hvb
          rcases update_cases hub with ⟨rfl, hx⟩ | ⟨_, hx⟩ <;> rcases update_cases hvb with ⟨rfl, hy⟩ | ⟨_, hy⟩
          · rfl
          · simp only [Option.some.injEq, Prod.mk.injEq] at hx
            rw [← hx.1] at hy
            exact absurd hy (hcu _ _)
          · simp only [Option.some.injEq, Prod.mk.injEq] at hy
            rw [← hy.1] at hx
            exact absurd hx (hcu _ _)
          · exact h.own u v d b b' hx hy
        · intro d
          show d < s.made ↔ _
          rw [h.all d, hr]
          constructor
          · rintro (hm | hm | ⟨u, b, hm⟩)
            · rcases List.mem_cons.mp hm with rfl | hm
              · exact .inr (.inr ⟨t, true, by simp⟩)
              · exact .inl hm
            · exact .inr (.inl hm)
            · refine .inr (.inr ⟨u, b, ?_⟩)
              have : u ≠ t := by rintro rfl; exact hnone _ _ hm
              simp [this, hm]
          · rintro (hm | hm | ⟨u, b, hm⟩)
            · exact .inl (List.mem_cons_of_mem _ hm)
            · exact .inr (.inl hm)
            · rcases update_cases hm with ⟨_, hx⟩ | ⟨_, hx⟩
              · simp only [Option.some.injEq, Prod.mk.injEq] at hx
                rw [← hx.1]
                exact .inl List.mem_cons_self
              · exact .inr (.inr ⟨u, b, hx⟩)
  | dismiss t =>
    simp only [step] at hs
    cases hu : s.used t with
    | none => simp [hu] at hs
    | some x =>
      obtain ⟨c, b⟩ := x
      simp only [hu] at hs
      obtain ⟨hcr, hcf⟩ := h.lone t c b hu
      have hothers : ∀ u b', u ≠ t → s.used u ≠ some (c, b') := fun u b' hne hub => hne (h.own u t c b' b hub hu)
      split_ifs at hs with h1 h2
      · injection hs with hs
        subst hs
        refine ⟨h.count, h.small, h.rnodup, Multiset.nodup_cons.mpr ⟨hcf, h.fnodup⟩, ?_, ?_, ?_, ?_⟩
        · intro d hd hm
          rcases Multiset.mem_cons.mp hm with rfl | hm
          · exact hcr hd
          · exact h.apart d hd hm
        · intro u d b' hub
          rcases update_cases hub with ⟨_, hx⟩ | ⟨hne, hx⟩
          · cases hx
          · obtain ⟨h3, h4⟩ := h.lone u d b' hx
            refine ⟨h3, fun hm => ?_⟩
            rcases Multiset.mem_cons.mp hm with rfl | hm
            · exact hothers u b' hne hx
            · exact h4 hm
        · intro u v d b1 b2 hub hvb
          rcases update_cases hub with ⟨_, hx⟩ | ⟨_, hx⟩
          · cases hx
          · rcases update_cases hvb with ⟨_, hy⟩ | ⟨_, hy⟩
            · cases hy
            · exact h.own u v d b1 b2 hx hy
        · intro d
          show d < s.made ↔ _
          rw [h.all d]
          constructor
          · rintro (hm | hm | ⟨u, b', hm⟩)
            · exact .inl hm
            · exact .inr (.inl (Multiset.mem_cons_of_mem hm))
            · by_cases hut : u = t
              · subst hut
                rw [hu] at hm
                simp only [Option.some.injEq, Prod.mk.injEq] at hm
                rw [← hm.1]
                exact .inr (.inl (Multiset.mem_cons_self _ _))
              · exact .inr (.inr ⟨u, b', by simp [hut, hm]⟩)
          · rintro (hm | hm | ⟨u, b', hm⟩)
            · exact .inl hm
            · rcases Multiset.mem_cons.mp hm with rfl | hm
              · exact .inr (.inr ⟨t, b, hu⟩)
              · exact .inr (.inl hm)
            · rcases update_cases hm with ⟨_, hx⟩ | ⟨_, hx⟩
              · cases hx
              · exact .inr (.inr ⟨u, b', hx⟩)
      · injection hs with hs
        subst hs
        push Not at h1
        refine ⟨by simp [h.count], h1.2, ?_, h.fnodup, ?_, ?_, ?_, ?_⟩
        · rw [List.nodup_append]
          refine ⟨h.rnodup, by simp, ?_⟩
          intro x hx y hy
          rw [List.mem_singleton] at hy
          subst hy
          rintro rfl
          exact hcr hx
        · intro d hd
          rcases List.mem_append.mp hd with hd | hd
          · exact h.apart d hd
          · rw [List.mem_singleton] at hd; subst hd; exact hcf
        · intro u d b' hub
          rcases update_cases hub with ⟨_, hx⟩ | ⟨hne, hx⟩
          · cases hx
          · obtain ⟨h3, h4⟩ := h.lone u d b' hx
            refine ⟨fun hm => ?_, h4⟩
            rcases List.mem_append.mp hm with hm | hm
            · exact h3 hm
            · rw [List.mem_singleton] at hm; subst hm; exact hothers u b' hne hx
        · intro u v d b1 b2 hub hvb
          rcases update_cases hub with ⟨_, hx⟩ | ⟨_, hx⟩
          · cases hx
          · rcases update_cases hvb with ⟨_, hy⟩ | ⟨_, hy⟩
            · cases hy
            · exact h.own u v d b1 b2 hx hy
        · intro d
          show d < s.made ↔ _
          rw [h.all d]
          constructor
          · rintro (hm | hm | ⟨u, b', hm⟩)
            · exact .inl (List.mem_append_left _ hm)
            · exact .inr (.inl hm)
            · by_cases hut : u = t
              · subst hut
                rw [hu] at hm
                simp only [Option.some.injEq, Prod.mk.injEq] at hm
                rw [← hm.1]
                exact .inl (List.mem_append_right _ List.mem_cons_self)
              · exact .inr (.inr ⟨u, b', by simp [hut, hm]⟩)
          · rintro (hm | hm | ⟨u, b', hm⟩)
            · rcases List.mem_append.mp hm with hm | hm
              · exact .inl hm
              · rw [List.mem_singleton] at hm; subst hm; exact .inr (.inr ⟨t, b, hu⟩)
            · exact .inr (.inl hm)
            · rcases update_cases hm with ⟨_, hx⟩ | ⟨_, hx⟩
              · cases hx
              · exact .inr (.inr ⟨u, b', hx⟩)

theorem exec_inv {s₀ s : State T} {as : List (Action T)} (h₀ : Inv s₀) (h : Exec s₀ as s) : Inv s := by
  induction h with
  | nil => exact h₀
  | snoc _ hs ih => exact step_inv ih hs

/-! ## How many there are -/

/-- One for a thread that uses a crew from the reserve. -/
def borrowed (x : Option (Nat × Bool)) : Nat := if x.map Prod.snd = some true then 1 else 0

/-- Those in reserve and those borrowed from it. -/
def stock [Fintype T] (s : State T) : Nat := s.count + ∑ t, borrowed (s.used t)

theorem sum_update [Fintype T] (s : State T) (t : T) (x : Option (Nat × Bool)) :
    ∑ u, borrowed (Function.update s.used t x u) + borrowed (s.used t) = ∑ u, borrowed (s.used u) + borrowed x := by
  rw [← Finset.add_sum_erase Finset.univ (fun u => borrowed (Function.update s.used t x u)) (Finset.mem_univ t),
    ← Finset.add_sum_erase Finset.univ (fun u => borrowed (s.used u)) (Finset.mem_univ t)]
  have : ∑ u ∈ Finset.univ.erase t, borrowed (Function.update s.used t x u) = ∑ u ∈ Finset.univ.erase t, borrowed (s.used u) :=
    Finset.sum_congr rfl (fun u hu => by simp [Finset.ne_of_mem_erase hu])
  rw [this]
  simp only [Function.update_self]
  omega

theorem refill_more (l : Nat) (s : State T) : s.count ≤ (refill l s).count := by
  induction l generalizing s with
  | zero => exact Nat.le_refl _
  | succ l ih =>
    rw [refill]
    by_cases h : s.count < limit
    · rw [if_pos h]
      have := ih { s with made := s.made + 1, reserve := s.made :: s.reserve, count := s.count + 1 }
      dsimp only at this
      omega
    · rw [if_neg h]

theorem step_stock [Fintype T] {s s' : State T} {a : Action T} (h : limit ≤ stock s) (hs : step s a = some s') : limit ≤ stock s' := by
  unfold stock at h ⊢
  cases a with
  | replenish t l =>
    simp only [step] at hs
    split_ifs at hs
    injection hs with hs
    subst hs
    rw [(refill_used l s).1]
    have := refill_more l s
    omega
  | recruit t mem =>
    by_cases hu : s.used t = none
    swap
    · simp [step, hu] at hs
    simp only [step, hu, if_true] at hs
    have h0 : borrowed (none : Option (Nat × Bool)) = 0 := by simp [borrowed]
    cases mem with
    | true =>
      injection hs with hs
      subst hs
      have := sum_update s t (some (s.made, false))
      rw [hu, h0] at this
      dsimp only
      omega
    | false =>
      cases hr : s.reserve with
      | nil => simp only [hr] at hs; injection hs with hs; subst hs; exact h
      | cons c r =>
        simp only [hr] at hs
        split_ifs at hs with hc
        injection hs with hs
        subst hs
        have := sum_update s t (some (c, true))
        have h1 : borrowed (some (c, true)) = 1 := by simp [borrowed]
        rw [hu, h0, h1] at this
        dsimp only
        omega
  | dismiss t =>
    simp only [step] at hs
    cases hu : s.used t with
    | none => simp [hu] at hs
    | some x =>
      obtain ⟨c, b⟩ := x
      simp only [hu] at hs
      have := sum_update s t none
      have h0 : borrowed (none : Option (Nat × Bool)) = 0 := by simp [borrowed]
      rw [hu, h0] at this
      have h1 : borrowed (some (c, b)) ≤ 1 := by unfold borrowed; split_ifs <;> omega
      split_ifs at hs with h2 h3
      · injection hs with hs
        subst hs
        dsimp only at h2 ⊢
        rcases h2 with h2 | h2
        · subst h2
          have : borrowed (some (c, false)) = 0 := by simp [borrowed]
          omega
        · omega
      · injection hs with hs
        subst hs
        dsimp only
        omega

theorem exec_stock [Fintype T] {s₀ s : State T} {as : List (Action T)} (h₀ : limit ≤ stock s₀) (h : Exec s₀ as s) : limit ≤ stock s := by
  induction h with
  | nil => exact h₀
  | snoc _ hs ih => exact step_stock ih hs

end Cru.Crew
