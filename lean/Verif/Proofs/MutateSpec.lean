import Verif.Proofs.MutateEnd
import Mathlib.Order.WellFounded
import Mathlib.Data.Fintype.Order
import Mathlib.Data.Fintype.EquivFin

/-! # Consequences of the specification of mutation -/

namespace Cru.Mutate

variable {N V L : Type} [DecidableEq N] {k : Kernel V L} {p : Plan} {g : Gr N V L}

omit [DecidableEq N] in
theorem Revised.unique {v : V} {ins outs : List (L × V)} {a b : V} (h1 : Revised k v ins outs a) (h2 : Revised k v ins outs b) : a = b := by
  unfold Revised at h1 h2
  split at h1
  · rename_i he; rw [he] at h2; exact h1.trans h2.symm
  · rename_i f he
    rw [he] at h2
    dsimp only at h2
    rw [h1] at h2
    injection h2

omit [DecidableEq N] in
theorem Relabelled.unique {v : V} {vertex : N → V} {es a b : List (L × N)} (h1 : Relabelled k v vertex es a) (h2 : Relabelled k v vertex es b) : a = b := by
  unfold Relabelled at h1 h2
  split at h1
  · rename_i he; rw [he] at h2; exact h1.trans h2.symm
  · rename_i f he
    rw [he] at h2
    dsimp only at h2
    induction h1 generalizing b with
    | nil => cases h2; rfl
    | @cons e e' es es' h3 _ ih =>
      cases h2 with
      | @cons _ e'' _ es'' h4 h5 =>
        have h6 : e' = e'' := by
          have := h3.1.symm.trans h4.1
          injection this with this
          exact Prod.ext this (h3.2.trans h4.2.symm)
        rw [h6, ih h5]

/-- The new values are determined. -/
theorem Becomes.unique {turn : N → Prop} {m : N} {v v' : V} {es es' : List (L × N)} (h : Becomes k p g turn m v es) (h' : Becomes k p g turn m v' es') :
    v = v' ∧ es = es' := by
  induction h generalizing v' es' with
  | @intro m v es val post h1 h2 h3 h4 ih =>
    cases h' with
    | intro val' post' h1' h2' h3' h4' =>
      have hval : ∀ t ∈ prior p g m, val t = val' t := by
        intro t ht
        by_cases c : turn t
        · exact (ih t ht c (h1' t ht c)).1
        · rw [h2 t ht c, h2' t ht c]
      have harr : arriving k p g turn post m = arriving k p g turn post' m :=
        arriving_congr fun t ht => ⟨Iff.rfl, fun c => (ih t ht c (h1' t ht c)).2⟩
      have hnew : (arriving k p g turn post m).map (fun e => (e.1, val e.2)) = (arriving k p g turn post' m).map (fun e => (e.1, val' e.2)) := by
        rw [harr]
        refine List.map_congr_left fun e he => ?_
        rw [hval e.2]
        rw [← arriving_targets (k := k) (turn := turn) (post := post')]
        exact List.mem_map.2 ⟨e, he, rfl⟩
      dsimp only at h3 h3'
      rw [hnew] at h3
      have hv : v = v' := by
        split at h3
        · rename_i c; rw [if_pos c] at h3'; exact h3.unique h3'
        · rename_i c; rw [if_neg c] at h3'; exact h3.unique h3'
      subst hv
      exact ⟨rfl, h4.unique h4'⟩

theorem Becomes.congr {turn turn' : N → Prop} {m : N} {v : V} {es : List (L × N)} (ht : ∀ t, Reaches (prior p g) m t → (turn t ↔ turn' t))
    (h : Becomes k p g turn m v es) : Becomes k p g turn' m v es := by
  induction h with
  | @intro m v es val post h1 h2 h3 h4 ih =>
    refine .intro val post (fun t htp c => ih t htp ((ht t (.single htp)).2 c) fun u hu => ht u (.head htp hu))
      (fun t htp c => h2 t htp fun c' => c ((ht t (.single htp)).1 c')) ?_ h4
    have harr : arriving k p g turn' post m = arriving k p g turn post m :=
      arriving_congr fun t htp => ⟨(ht t (.single htp)).symm, fun _ => rfl⟩
    dsimp only at h3 ⊢
    rw [harr]; exact h3

theorem IsMutated.unique {turn : N → Prop} {Val : N → V → List (L × N) → Prop} {h h' : Gr N V L} (hM : Mutual p g)
    (hV : ∀ m v es v' es', Val m v es → Val m v' es' → v = v' ∧ es = es')
    (h1 : IsMutated k p g turn Val h) (h2 : IsMutated k p g turn Val h') : Agree h h' := by
  have hva : ∀ m ∈ g.nodes, h.vertex m = h'.vertex m ∧ after p h m = after p h' m := by
    intro m hm
    by_cases c : turn m
    · exact hV _ _ _ _ _ (h1.mutated m hm c) (h2.mutated m hm c)
    · rw [(h1.kept m hm c).1, (h1.kept m hm c).2, (h2.kept m hm c).1, (h2.kept m hm c).2]; exact ⟨rfl, rfl⟩
  have hb : ∀ m ∈ g.nodes, before p h m = before p h' m := by
    intro m hm
    rw [h1.matched m hm, h2.matched m hm]
    exact arriving_congr fun t ht => ⟨Iff.rfl, fun _ => (hva t (hM.prior m hm t ht)).2⟩
  have hboth : ∀ m ∈ g.nodes, h.out m = h'.out m ∧ h.inn m = h'.inn m := by
    intro m hm
    have ha := (hva m hm).2
    have hbe := hb m hm
    unfold after at ha
    unfold before at hbe
    split at ha
    · rename_i c; rw [if_pos c, if_pos c] at hbe; exact ⟨ha, hbe⟩
    · rename_i c; rw [if_neg c, if_neg c] at hbe; exact ⟨hbe, ha⟩
  refine ⟨h1.nodes.trans h2.nodes.symm, h1.base.trans h2.base.symm, fun m hm => ?_, fun m hm => ?_, fun m hm => ?_⟩ <;> rw [h1.nodes] at hm
  · exact (hva m hm).1
  · exact (hboth m hm).1
  · exact (hboth m hm).2

theorem IsMutated.congr {turn turn' : N → Prop} {Val Val' : N → V → List (L × N) → Prop} {h : Gr N V L} (hM : Mutual p g)
    (ht : ∀ m ∈ g.nodes, turn m ↔ turn' m) (hV : ∀ m ∈ g.nodes, ∀ v es, Val m v es → Val' m v es) (h1 : IsMutated k p g turn Val h) :
    IsMutated k p g turn' Val' h := by
  refine ⟨h1.nodes, h1.base, fun m hm c => hV m hm _ _ (h1.mutated m hm ((ht m hm).2 c)), fun m hm c => h1.kept m hm fun c' => c ((ht m hm).1 c'), fun m hm => ?_⟩
  rw [h1.matched m hm]
  exact arriving_congr fun t htp => ⟨ht t (hM.prior m hm t htp), fun _ => rfl⟩

omit [DecidableEq N] in
theorem directly_unique {m : N} {v v' : V} {es es' : List (L × N)} (h : Directly k p g m v es) (h' : Directly k p g m v' es') : v = v' ∧ es = es' := by
  have hv := h.1.unique h'.1
  subst hv
  exact ⟨rfl, h.2.unique h'.2⟩

omit [DecidableEq N] in
theorem turn_acc {prior : N → List N} {omitted : N → Prop} {m : N} (h0 : ∀ t, Reaches prior m t → ¬ omitted t) :
    Turn prior omitted m ↔ Acc (fun t m => t ∈ prior m) m := by
  constructor
  · intro h
    induction h with
    | first _ h2 => exact .intro _ fun t ht => by rw [h2] at ht; cases ht
    | next _ _ _ _ ih _ =>
      exact .intro _ fun t ht => ih t ht (h0 t (.single ht)) fun u hu => h0 u (.head ht hu)
  · intro h
    induction h with
    | intro m _ ih =>
      have hall : ∀ t ∈ prior m, Turn prior omitted t := fun t ht => ih t ht fun u hu => h0 u (.head ht hu)
      rcases hp : prior m with _ | ⟨t, ts⟩
      · exact .first (h0 m .refl) hp
      · have ht : t ∈ prior m := by rw [hp]; simp
        exact .next (h0 m .refl) (fun t ht _ => hall t ht) ht (hall t ht)

omit [DecidableEq N] in
/-- There's no endless way back in a finite set without cycles. -/
theorem acc_of_acyclic {prior : N → List N} {nodes : List N} {m : N} (hf : ∀ t, Reaches prior m t → t ∈ nodes)
    (hac : ∀ t, Reaches prior m t → ¬ Relation.TransGen (fun x y => y ∈ prior x) t t) : Acc (fun t m => t ∈ prior m) m := by
  classical
  let S := {t // Reaches prior m t}
  have : Finite S := (show {t | Reaches prior m t}.Finite from (List.finite_toSet nodes).subset fun t ht => hf t ht)
  let r : S → S → Prop := fun a b => Relation.TransGen (fun x y => y ∈ prior x) b.1 a.1
  have : IsTrans S r := ⟨fun a b c h1 h2 => h2.trans h1⟩
  have : Std.Irrefl r := ⟨fun a h => hac a.1 a.2 h⟩
  have hw : WellFounded r := Finite.wellFounded_of_trans_of_irrefl r
  have : ∀ a : S, Acc (fun t m => t ∈ prior m) a.1 := by
    intro a
    induction a using hw.induction with
    | _ a ih => exact .intro _ fun t ht => ih ⟨t, a.2.tail ht⟩ (.single ht)
  exact this ⟨m, .refl⟩

end Cru.Mutate
