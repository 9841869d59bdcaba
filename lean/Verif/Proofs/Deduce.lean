import Verif.Proofs.Induce
import Verif.Proofs.Walk

/-! # Disposal of intermediate values -/

namespace Cru.Induce

open Net

variable {n : Nat} {N A : Type} [DecidableEq N] [DecidableEq A] {next : N → List N} {nil : A} {hash : N → Nat} {hn : 0 < n}

def disposer (next : N → List N) (nil : A) (hash : N → Nat) (hn : 0 < n) : Walker (deduction next nil hash hn) next where
  node m := m
  lane m := Build.lane hn (hash m)
  seen s := s.seen
  ok _ _ := True
  dest _ := rfl
  others s m j hj := by
    have hj' : j ≠ Build.lane hn (hash m) := hj
    simp only [deduction]
    refine ⟨?_, fun _ => trivial⟩
    by_cases c1 : s.acc m = nil <;> by_cases c2 : m ∈ s.seen (Build.lane hn (hash m)) <;> simp [c1, c2, Function.update_of_ne hj']
  undeferred s m := by
    simp only [deduction]
    split <;> rfl
  step s m := by
    simp only [deduction]
    by_cases c2 : m ∈ s.seen (Build.lane hn (hash m))
    · left
      by_cases c1 : s.acc m = nil <;> simp [c1, c2]
    · right
      by_cases c1 : s.acc m = nil <;> simp [c1, c2]
  env e s := ⟨rfl, fun i h => h⟩

/-- What has been disposed of is what was there at the nodes visited. -/
structure Disposed (lane : N → Fin n) (nil : A) (acc : N → A) (s : Disposal n N A) : Prop where
  gone : ∀ m ∈ s.seen (lane m), s.acc m = nil
  kept : ∀ m, m ∉ s.seen (lane m) → s.acc m = acc m
  nodup : (s.freed.map Prod.fst).Nodup
  mem : ∀ m a, (m, a) ∈ s.freed ↔ m ∈ s.seen (lane m) ∧ a = acc m ∧ a ≠ nil

theorem disposed {acc : N → A} {b : N} : ∀ x, Bag.Reach (deduction next nil hash hn) b ⟨fun _ => [], acc, []⟩ x →
    Disposed (fun m => Build.lane hn (hash m)) nil acc x.1 := by
  intro x hx
  induction hx with
  | init =>
    refine ⟨?_, ?_, ?_, ?_⟩
    · intro m h; cases h
    · intro m _; rfl
    · exact List.nodup_nil
    · intro m a; simp
  | step hr hs ih =>
    cases hs with
    | env e g m => exact ih
    | handle s m rest =>
      simp only [deduction]
      by_cases c2 : m ∈ s.seen (Build.lane hn (hash m))
      · rw [if_pos c2, if_pos (ih.gone m c2)]; exact ih
      · rw [if_neg c2]
        have hk := ih.kept m c2
        have hnf : ∀ a, (m, a) ∉ s.freed := fun a h => c2 ((ih.mem m a).1 h).1
        have hseen : ∀ q (l : Fin n → List N), l = s.seen → (q ∈ Function.update l (Build.lane hn (hash m)) (l (Build.lane hn (hash m)) ++ [m]) (Build.lane hn (hash q)) ↔
            q = m ∨ q ∈ s.seen (Build.lane hn (hash q))) := by
          intro q l e
          subst e
          by_cases hq : Build.lane hn (hash q) = Build.lane hn (hash m)
          · rw [hq, Function.update_self, List.mem_append, List.mem_singleton, or_comm]
          · rw [Function.update_of_ne hq]
            exact ⟨.inr, fun h => h.elim (fun e => absurd (by rw [e]) hq) id⟩
        by_cases c1 : s.acc m = nil
        · rw [if_pos c1]
          refine ⟨fun q hq => ?_, fun q hq => ?_, ih.nodup, fun q a => ?_⟩
          · rcases (hseen q s.seen rfl).1 hq with rfl | hq
            · exact c1
            · exact ih.gone q hq
          · exact ih.kept q fun h => hq ((hseen q s.seen rfl).2 (.inr h))
          · rw [ih.mem]
            refine ⟨fun h => ⟨(hseen q s.seen rfl).2 (.inr h.1), h.2⟩, fun h => ⟨?_, h.2⟩⟩
            rcases (hseen q s.seen rfl).1 h.1 with rfl | hq
            · exact absurd (h.2.1.trans (hk.symm.trans c1)) h.2.2
            · exact hq
        · rw [if_neg c1]
          refine ⟨fun q hq => ?_, fun q hq => ?_, ?_, fun q a => ?_⟩
          · rcases (hseen q s.seen rfl).1 hq with rfl | hq
            · exact Function.update_self ..
            · have : q ≠ m := fun e => c2 (e ▸ hq)
              exact (Function.update_of_ne this _ _).trans (ih.gone q hq)
          · have : q ≠ m := fun e => hq ((hseen q s.seen rfl).2 (.inl e))
            exact (Function.update_of_ne this _ _).trans (ih.kept q fun h => hq ((hseen q s.seen rfl).2 (.inr h)))
          · simp only [List.map_cons, List.nodup_cons]
            refine ⟨fun h => ?_, ih.nodup⟩
            obtain ⟨⟨q, a⟩, h1, h2⟩ := List.mem_map.1 h
            exact hnf a (by rw [← (show q = m from h2)]; exact h1)
          · simp only [List.mem_cons, Prod.mk.injEq]
            rw [ih.mem]
            constructor
            · rintro (⟨rfl, rfl⟩ | h)
              · exact ⟨(hseen q s.seen rfl).2 (.inl rfl), hk, c1⟩
              · exact ⟨(hseen q s.seen rfl).2 (.inr h.1), h.2⟩
            · rintro ⟨h1, rfl, h3⟩
              rcases (hseen q s.seen rfl).1 h1 with rfl | hq
              · exact .inl ⟨rfl, hk.symm⟩
              · exact .inr ⟨hq, rfl, h3⟩

theorem disposed_done {acc : N → A} {b : N} {z : State n N (Disposal n N A)}
    (hz : Net.Reach (deduction next nil hash hn) b ⟨fun _ => [], acc, []⟩ z) (hd : z.main = .done) :
    (z.g.freed.map Prod.fst).Nodup ∧ (∀ m a, (m, a) ∈ z.g.freed ↔ Reaches next b m ∧ a = acc m ∧ a ≠ nil) ∧
    ∀ m, (Reaches next b m → z.g.acc m = nil) ∧ (¬ Reaches next b m → z.g.acc m = acc m) := by
  have hb := reach_bag hn hz
  have hp := (inv_finished (i₀ := b) (reach_inv hn hz) (by rw [hd]; trivial)).1
  rw [hp] at hb
  have h1 := disposed _ hb
  have h2 : (disposer next nil hash hn).Inv b z.g 0 := Walker.inv_reach (W := disposer next nil hash hn) (fun i => rfl) _ hb
  have h3 : ∀ m, m ∈ z.g.seen (Build.lane hn (hash m)) ↔ Reaches next b m := by
    intro m
    rw [← Walker.visited_iff h2 (fun _ => trivial) m, Walker.mem_visited]
    exact ⟨fun h => ⟨_, h⟩, fun ⟨i, h⟩ => by
      have : Build.lane hn (hash m) = i := h2.home i m h
      rw [this]; exact h⟩
  refine ⟨h1.nodup, fun m a => by rw [h1.mem, h3], fun m => ?_⟩
  exact ⟨fun hm => h1.gone m ((h3 m).2 hm), fun hm => h1.kept m fun h => hm ((h3 m).1 h)⟩

end Cru.Induce
