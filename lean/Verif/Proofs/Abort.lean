import Verif.Model.Abort
import Verif.Proofs.BuildAcc

/-! # Lemmas about workers that can not begin -/

namespace Cru.Abort

open Net Fold
open Request (Env)
open BuildAcc
open SpawnAcc (Node allHeld)

variable {n : Nat} {V : Type} {c : Env} {o : Ops V} {ends : Fin n → List (Nat × Nat)} {hn : 0 < n} {dead : Fin n → Int}

theorem dispose_err (i j : Fin n) (s : Job n V) (p : Pkt V) (h : s.err j ≠ 0) : (dispose c i s p).err j ≠ 0 := by
  cases p with
  | fresh v b => exact update_sticky (f := s.err) (i := i) (fun h => by rw [DedupAcc.destroy_sticky _ _ (by exact h)]; exact h) j h
  | known a k b => exact h

theorem dispose_good {s : Job n V} {p : Pkt V} {rest : Multiset (Pkt V)} (i : Fin n) (h : Good c o (s, p ::ₘ rest)) : Good c o (dispose c i s p, rest) := by
  obtain ⟨hS, hE⟩ := h
  have hm : ∀ j, (dispose c i s p).err j = 0 → s.err j = 0 := fun j hj => by
    by_contra hc
    exact dispose_err i j s p hc hj
  cases p with
  | fresh v b =>
    refine ⟨⟨hS.idle, hS.built, fun j h1 h2 => hS.moved j h1 (hm j h2), hS.tabled⟩, ?_⟩
    have h1 : Even s.world (owned c.vFree v + (total c s + inFlight c rest)) := hE.cast (by
      rw [outstanding_eq, inFlight_cons]
      simp only [Pkt.held]; abel)
    refine (h1.bal ((MergeAcc.Bal.err _ (s.err i) _).trans ((Request.destroy_bal c c.vFree v _).frame _))).cast ?_
    rw [outstanding_eq, zero_add]
    rfl
  | known a k b =>
    refine ⟨hS, hE.cast ?_⟩
    rw [outstanding_eq, outstanding_eq, inFlight_cons]
    simp [Pkt.held, dispose]

theorem dispose_careful {s : Job n V} {p : Pkt V} {rest : Multiset (Pkt V)} (i : Fin n) (h : Careful o (s, p ::ₘ rest)) :
    Careful o (dispose c i s p, rest) := by
  have hl : (dispose c i s p).lost = s.lost := by cases p <;> rfl
  refine ⟨fun hn => ?_, fun hs => ?_, fun hs => ?_⟩
  · obtain ⟨j, hj⟩ := h.failed (by rw [← hl]; exact hn)
    exact ⟨j, dispose_err i j s p hj⟩
  · show (dispose c i s p).lost = []
    rw [hl]; exact h.connector hs
  · refine ⟨?_, fun q hq => (h.build hs).2 q (Multiset.mem_cons_of_mem hq)⟩
    show (dispose c i s p).lost = []
    rw [hl]; exact (h.build hs).1

theorem visit_sticky {s : Job n V} {i : Fin n} {k : Nat} {initial : Bool} : ∀ j, s.err j ≠ 0 → (visit c o i s k initial).1.err j ≠ 0 := by
  intro j hj
  unfold visit
  by_cases e1 : s.err i ≠ 0
  · rw [if_pos e1]; exact hj
  · rw [if_neg e1]
    have hji : j ≠ i := by rintro rfl; exact e1 hj
    split
    · exact hj
    · rename_i a ha
      by_cases e2 : a.out ≠ []
      · rw [if_pos e2]; exact hj
      · rw [if_neg e2]
        dsimp only
        split_ifs <;> simpa [halt, store, hji] using hj

theorem handle_sticky {s : Job n V} {i : Fin n} {p : Pkt V} : ∀ j, s.err j ≠ 0 → (BuildAcc.handle c o ends i s p).1.err j ≠ 0 := by
  intro j hj
  have h1 : (poll s i).err j ≠ 0 := by
    obtain ⟨sample, stop, e⟩ := poll_eq s i
    rw [e]; exact hj
  have h2 := begin_sticky (c := c) (o := o) (ends := ends) (i := i) j h1
  cases p with
  | fresh v b => exact admit_sticky j h2
  | known a k b => exact visit_sticky j h2

theorem produced_dead {s : Job n V} {p : Pkt V} (h : dead ((BuildAcc.task c o ends hn).dest p) ≠ 0) :
    ((building c o ends hn dead).handle ((building c o ends hn dead).dest p) s p).1 = dispose c ((BuildAcc.task c o ends hn).dest p) s p ∧
    Bag.produced (building c o ends hn dead) s p = 0 := by
  have e : (building c o ends hn dead).handle ((building c o ends hn dead).dest p) s p =
      (dispose c ((BuildAcc.task c o ends hn).dest p) s p, [], false) := by
    show (if dead ((BuildAcc.task c o ends hn).dest p) ≠ 0 then _ else _) = _
    rw [if_pos h]
    rfl
  refine ⟨by rw [e], ?_⟩
  unfold Bag.produced
  rw [e]; rfl

theorem produced_live {s : Job n V} {p : Pkt V} (h : ¬ dead ((BuildAcc.task c o ends hn).dest p) ≠ 0) :
    ((building c o ends hn dead).handle ((building c o ends hn dead).dest p) s p).1 =
      ((BuildAcc.task c o ends hn).handle ((BuildAcc.task c o ends hn).dest p) s p).1 ∧
    Bag.produced (building c o ends hn dead) s p = Bag.produced (BuildAcc.task c o ends hn) s p := by
  have e : (building c o ends hn dead).handle ((building c o ends hn dead).dest p) s p =
      (BuildAcc.task c o ends hn).handle ((BuildAcc.task c o ends hn).dest p) s p := by
    show (if dead ((BuildAcc.task c o ends hn).dest p) ≠ 0 then _ else _) = _
    rw [if_neg h]
    rfl
  refine ⟨by rw [e], ?_⟩
  unfold Bag.produced
  rw [e]

/-- What holds at any time. -/
structure Fine (c : Env) (o : Ops V) (dead : Fin n → Int) (x : Job n V × Multiset (Pkt V)) : Prop where
  good : Good c o x
  careful : Careful o x
  failed : ∀ i, dead i ≠ 0 → x.1.err i ≠ 0

theorem fine_inv {p₀ : Pkt V} {s₀ : Job n V} (h₀ : Fine c o dead (s₀, {p₀})) : ∀ x, Bag.Reach (building c o ends hn dead) p₀ s₀ x → Fine c o dead x := by
  intro x hx
  induction hx with
  | init => exact h₀
  | step hr hs ih =>
    cases hs with
    | env e s m =>
      exact ⟨⟨⟨ih.good.1.idle, ih.good.1.built, ih.good.1.moved, ih.good.1.tabled⟩, ih.good.2⟩, ⟨ih.careful.failed, ih.careful.connector, ih.careful.build⟩,
        ih.failed⟩
    | handle s p rest =>
      by_cases hd : dead ((BuildAcc.task c o ends hn).dest p) ≠ 0
      · obtain ⟨e1, e2⟩ := produced_dead (c := c) (o := o) (ends := ends) (hn := hn) (s := s) hd
        rw [e1, e2, zero_add]
        exact ⟨dispose_good _ ih.good, dispose_careful _ ih.careful, fun i hi => dispose_err _ i s p (ih.failed i hi)⟩
      · obtain ⟨e1, e2⟩ := produced_live (c := c) (o := o) (ends := ends) (hn := hn) (s := s) hd
        rw [e1, e2]
        exact ⟨good_handle ih.good, careful_handle ih.careful, fun i hi => handle_sticky i (ih.failed i hi)⟩

end Cru.Abort
