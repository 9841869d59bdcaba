import Verif.Proofs.Classless
import Verif.Props.Calls

/-!
# C154: merging without a classifier fails if two vertices are the same word
-/

namespace Cru.Infer

/-- What's inferred for a merger that has neither a classifier nor a vertex operation: the map from a vertex to itself, and the predicate that is
always false. -/
theorem C154_inferred (c c' : Merger) (s s' : Sig) (hg : (Request.merged c).Given) (hc : (Request.merged c).Classless)
    (h : inferredMerger c s = .ok (c', s')) :
    c'.classifier.order = ⟨some .scalarHash, some .falseBpred⟩ ∧ (∀ d, nodeSteps c'.classifier.prop d = [.call (some .identityTop)]) ∧
    c'.kernel.vOp.vertex.map = some .undefinedTop := by
  have hv : c.kernel.vOp.FromUser := prp_user hg.1.1 (fun _ h => by simp only [Request.folds, Kernel.folds, List.mem_append]; exact .inr (.inl h))
  have hb : c.classifier = ⟨⟨noFold, noFold, noFold⟩, ⟨none, none⟩⟩ := by
    have hx : c.classifier.blank = true := hc.1
    generalize c.classifier = k at hx ⊢
    obtain ⟨⟨⟨v1, v2, v3, v4, v5, v6⟩, ⟨i1, i2, i3, i4, i5, i6⟩, ⟨o1, o2, o3, o4, o5, o6⟩⟩, ⟨q1, q2⟩⟩ := k
    simp only [Classifier.blank, Prp.blank, Fold.blank, Order.blank, Bool.and_eq_true, Option.isNone_iff_eq_none] at hx
    simp only [noFold]
    simp_all
  have hm := (merger_parts hg h).2.2.2
  have hmap : c'.kernel.vOp.vertex.map = some .undefinedTop := by
    rcases hm with ⟨hr, -⟩ | hm
    · exfalso
      have e := C153_classless c c' s s' [(0, 0), (0, 0)] hg hc h
      rw [if_pos (by simp)] at e
      unfold classSteps at e
      by_cases hu : c'.kernel.vOp.vertex.map ≠ some .undefinedTop
      · rw [if_pos hu] at e
        have := nodes_fine hr (by
          rcases (merger_parts hg h).2.2.2 with ⟨-, h2⟩ | ⟨-, h2⟩
          · exact h2
          · exact absurd h2 hu) [(0, 0), (0, 0)] (.raise (-1144)) (by rw [e]; exact List.mem_singleton.2 rfl)
        exact absurd this (show ¬ ((-1144 : Int) = UNDVAC) by decide)
      · push Not at hu
        rcases hr.vertex.map with hn | ⟨g, hn, hg'⟩
        · rw [hu] at hn; cases hn
        · rw [hu] at hn; cases hn; cases hg'
    · exact hm.2
  refine ⟨?_, ?_, hmap⟩ <;>
  · unfold inferredMerger at h
    split_ifs at h
    obtain ⟨⟨c1, s1⟩, h1, h⟩ := errorOf_bind_none h
    obtain ⟨⟨c2, s2⟩, h2, h⟩ := errorOf_bind_none h
    obtain ⟨c3, h3, h⟩ := errorOf_bind_none h
    cases h
    have e1 : c1.classifier = c.classifier := by
      unfold mergerVertices at h1
      split_ifs at h1
      · cases h1; rfl
      · obtain ⟨w, hw, h1⟩ := errorOf_bind_none h1
        cases h1; rfl
    have e2 : c2.classifier = c1.classifier := by
      unfold mergerEdges at h2
      obtain ⟨y, hy, h2⟩ := errorOf_bind_none h2
      have : y.1.classifier = c1.classifier := by
        dsimp only at hy
        split_ifs at hy
        · cases hy; rfl
        · obtain ⟨w, hw, hy⟩ := errorOf_bind_none hy
          cases hy; rfl
      by_cases hp : y.1.pruner.isNone = true
      · rw [if_pos hp] at h2; cases h2; exact this
      · rw [if_neg hp] at h2
        obtain ⟨_, _, h2⟩ := errorOf_bind_none h2
        cases h2; exact this
    unfold mergerClassifier at h3
    dsimp only at h3
    rw [e2, e1, hb] at h3
    cases h3
    first | rfl | (intro d; rfl)

end Cru.Infer

namespace Cru.Merge

open Net Partition

variable {n : Nat} {N V L X : Type} [DecidableEq N] [DecidableEq X] {g : Gr N V L} {word : N → Option X} {hash : Option X → Nat} {o : EdgeOps N L}
  {addr : N → Nat}

/-- The vertices are different words. -/
def Distinct (g : Gr N V L) (word : N → Option X) : Prop := ∀ a ∈ g.nodes, ∀ b ∈ g.nodes, word a = word b → a = b

theorem words_set (hw : g.WF) {hn : 0 < n} {x : State n N (Trav.Job n N (Partition.Mem N X))} (hx : Sets g (unrelated word hash) addr hn x)
    (hk : x.g.killed = 0) : (∀ i, x.g.err i = 0) ∧ ∀ a ∈ g.nodes, x.g.mem.prop a = word a := by
  obtain ⟨hi, -⟩ := set_inv (val := word) (fun _ _ => rfl) _ (reach_bag hn hx.1)
  have hp := Trav.done_perm hx.1 hx.2 hk hi.noErr ⟨hw.nodup, hw.reach⟩
  refine ⟨hi.noErr, fun a ha => ?_⟩
  obtain ⟨i, -, h⟩ := List.mem_flatMap.1 (hp.mem_iff.2 ha)
  exact hi.set i a h

/-- **C154.** Although the predicate is always false, vertices that are the same word are in the same class, whatever the schedule. -/
theorem C154_classes (hw : g.WF) {hn : 0 < n} {x : State n N (Trav.Job n N (Partition.Mem N X))} (hx : Sets g (unrelated word hash) addr hn x)
    (hk : x.g.killed = 0) {y : State n N (Trav.Job n N (Mem n N))}
    (hy : Net.Reach (task g x.g.mem.prop hash (unrelated word hash).equal hn) g.base start y) (hyd : y.main = .done) (hyk : y.g.killed = 0) :
    IsGrouping (fun a b => x.g.mem.prop a = x.g.mem.prop b) g.nodes (classes x.g.mem.prop hash y.g) ∧
    (∀ a ∈ g.nodes, x.g.mem.prop a = word a) ∧
    ((∀ k ∈ classes x.g.mem.prop hash y.g, k.length ≤ 1) ↔ Distinct g word) := by
  obtain ⟨-, hv⟩ := words_set hw hx hk
  rw [show task g x.g.mem.prop hash (unrelated word hash).equal hn = _ from task_false g x.g.mem.prop hash hn] at hy
  obtain ⟨-, h1, -⟩ := grouped (c := sameWord word hash) hw (fun _ _ _ => rfl) decide_equality (decide_respects _) hy hyd hyk
  have h2 : IsGrouping (fun a b => x.g.mem.prop a = x.g.mem.prop b) g.nodes (classes x.g.mem.prop hash y.g) := by
    have e : (fun a b => decide (x.g.mem.prop a = x.g.mem.prop b) = true) = fun a b => x.g.mem.prop a = x.g.mem.prop b := by
      funext a b; simp
    rw [e] at h1
    exact h1
  refine ⟨h2, hv, ?_⟩
  rw [grouping_single (fun _ _ h => h.symm) h2 hw.nodup]
  unfold Distinct
  constructor
  · intro h a ha b hb hab; exact h a ha b hb (by rw [hv a ha, hv b hb]; exact hab)
  · intro h a ha b hb hab; exact h a ha b hb (by rw [← hv a ha, ← hv b hb]; exact hab)

/-- **C154.** Some worker raises an internal error when it has put vertices into classes if two of them are the same word, and otherwise none does.
`item` is what a node has got. -/
theorem C154_error {A U W : Type} (hw : g.WF) {hn : 0 < n} {x : State n N (Trav.Job n N (Partition.Mem N X))}
    (hx : Sets g (unrelated word hash) addr hn x) (hk : x.g.killed = 0) {y : State n N (Trav.Job n N (Mem n N))}
    (hy : Net.Reach (task g x.g.mem.prop hash (unrelated word hash).equal hn) g.base start y) (hyd : y.main = .done) (hyk : y.g.killed = 0)
    (c : MergeAcc.Merger A U W) (hc : c.vop = none) (item : N → MergeAcc.Item W) :
    (¬ Distinct g word → ∃ i : Fin n, ∀ w : Fold.World, w.err = 0 →
      (MergeAcc.fuse c ((unpacked (y.g.mem.bins i) (judyKeys (fun m => hash (x.g.mem.prop m)) (y.g.seen i))).map (List.map item)) w).2.err = -1144) ∧
    (Distinct g word → ∀ (i : Fin n) (w : Fold.World), w.err = 0 →
      (MergeAcc.fuse c ((unpacked (y.g.mem.bins i) (judyKeys (fun m => hash (x.g.mem.prop m)) (y.g.seen i))).map (List.map item)) w).2 = w) := by
  obtain ⟨-, -, h⟩ := C154_classes hw hx hk hy hyd hyk
  constructor
  · intro hd
    rw [← h] at hd
    push Not at hd
    obtain ⟨k, hk', hl⟩ := hd
    obtain ⟨i, -, hi⟩ := List.mem_flatMap.1 hk'
    refine ⟨i, fun w hw0 => (MergeAcc.fuse_error c hc _ w hw0).2 ⟨k.map item, List.mem_map.2 ⟨k, hi, rfl⟩, ?_⟩⟩
    simpa using hl
  · intro hd i w hw0
    rw [← h] at hd
    rw [(MergeAcc.fuse_error c hc _ w hw0).1]
    intro k hk'
    obtain ⟨k0, h0, rfl⟩ := List.mem_map.1 hk'
    simpa using hd k0 (List.mem_flatMap.2 ⟨i, List.mem_finRange i, h0⟩)

/-- **C154.** A graph can be returned exactly if the vertices are different words. -/
theorem C154_returned (hw : g.WF) (hl : IsEquality o.eq) (hlh : HashRespects o.hash o.eq) (ha : Function.Injective addr) {hn : 0 < n}
    {x : State n N (Trav.Job n N (Partition.Mem N X))} (hx : Sets g (unrelated word hash) addr hn x) (hk : x.g.killed = 0) :
    (∃ R, Merges g (unrelated word hash) o none addr hn x.g R) ↔ Distinct g word := by
  obtain ⟨he, hv⟩ := words_set hw hx hk
  constructor
  · rintro ⟨R, -, y, hy, hyd, -, hyk, hone, -⟩
    exact (C154_classes hw hx hk hy hyd hyk).2.2.1 (hone rfl)
  · intro hd
    obtain ⟨R, hR⟩ := merges_single (word := word) (hash := hash) hw hl hlh ha hn he (fun a ha b hb h => hd a ha b hb (by rw [← hv a ha, ← hv b hb]; exact h))
    exact ⟨R, merges_false.2 hR⟩

/-- **C154.** If a graph is returned, then it has the vertices of the original one, unless edges to them are pruned, and edges between the same vertices
are merged. -/
theorem C154_quotient (hw : g.WF) (hl : IsEquality o.eq) (hlh : HashRespects o.hash o.eq) (ha : Function.Injective addr) {hn : 0 < n}
    {x : State n N (Trav.Job n N (Partition.Mem N X))} (hx : Sets g (unrelated word hash) addr hn x) (hk : x.g.killed = 0) {R : Gr N V L}
    (hR : Merges g (unrelated word hash) o none addr hn x.g R) :
    R.WF ∧ R.base = g.base ∧ (∀ m ∈ R.nodes, m ∈ g.nodes) ∧ (o.pruner = none → R.nodes.Perm g.nodes) ∧
    ∀ m ∈ R.nodes, R.vertex m = g.vertex m ∧ ∃ cls : N → N, (∀ a ∈ g.nodes, cls a = a) ∧ IsFused o cls [g.out m] (R.out m) := by
  have hd := (C154_returned hw hl hlh ha hx hk).1 ⟨R, hR⟩
  obtain ⟨he, hv⟩ := words_set hw hx hk
  obtain ⟨cls, hq⟩ := merges_quotient (c := sameWord word hash) hw (fun _ _ _ => rfl) decide_equality (decide_respects _) hl hlh ha (merges_false.1 hR)
  have hcls : ∀ a ∈ g.nodes, cls a = a := by
    intro a ha
    obtain ⟨h1, h2⟩ := hq.member a ha
    have h2' : x.g.mem.prop a = x.g.mem.prop (cls a) := by simpa using h2
    rw [hv a ha, hv _ h1] at h2'
    exact (hd a ha _ h1 h2').symm
  have hb : g.base ∈ g.nodes := (hw.reach _).2 .refl
  refine ⟨hq.wf, by rw [hq.base, hcls _ hb], fun m hm => (hq.nodes m hm).1, fun hp => ?_, fun m hm => ?_⟩
  · refine (List.perm_ext_iff_of_nodup hq.wf.nodup hw.nodup).2 fun m => ⟨fun h => (hq.nodes m h).1, fun h => ?_⟩
    have := hq.all hp m h
    rwa [hcls m h] at this
  · obtain ⟨k, hk1, hk2, hk3, hk4⟩ := hq.content m hm
    have hmg := (hq.nodes m hm).1
    have hk5 : k = [m] := by
      have : (g.nodes.filter fun a => cls a = m) = g.nodes.filter fun a => a = m :=
        List.filter_congr fun a ha => by rw [hcls a ha]
      rw [this] at hk1
      have h6 : ∀ z, z ∈ k ↔ z = m := by
        intro z
        rw [hk1.mem_iff, List.mem_filter]
        simp only [decide_eq_true_eq]
        exact ⟨fun h => h.2, fun h => ⟨by rw [h]; exact hmg, h⟩⟩
      have h7 : k.Nodup := hk1.nodup_iff.2 (hw.nodup.filter _)
      exact List.perm_singleton.1 ((List.perm_ext_iff_of_nodup h7 (List.nodup_singleton m)).2 fun z => by rw [h6]; simp)
    subst hk5
    exact ⟨hk3, cls, hcls, hk4⟩

/-- **C154.** The phases up to the error end. -/
theorem C154_ends (hw : g.WF) (hn : 0 < n) :
    Ends (setTask g (unrelated word hash).map addr hn) g.base (Trav.start clear) ∧
    (∃ x, Sets g (unrelated word hash) addr hn x ∧ x.g.killed = 0) ∧
    ∀ prop : N → Option X, Ends (task g prop hash (unrelated word hash).equal hn) g.base start ∧
      ∃ y, Net.Reach (task g prop hash (unrelated word hash).equal hn) g.base start y ∧ y.main = .done ∧ y.g.killed = 0 := by
  have h1 := Trav.ends (fun _ : Fin n => setOne (unrelated word hash).map) addr hn (next := g.next false) (a := g.base) clear (fun m h => (hw.reach m).2 h)
  obtain ⟨x, hx, hd, hk⟩ := h1.2
  exact ⟨h1.1, ⟨x, ⟨hx, hd⟩, hk⟩, fun prop => Trav.ends (visit prop hash (unrelated word hash).equal) (fun m => hash (prop m)) hn
    (next := g.next false) (a := g.base) ⟨fun _ _ => [], 0⟩ (fun m h => (hw.reach m).2 h)⟩

/-! Demonstration: the words are the numbers of vertices, or whether they are odd. -/

example : Distinct Count.demo (fun m => some m) := fun _ _ _ _ h => Option.some.inj h

example : ¬ Distinct Count.demo (fun m => some (m % 2)) := by
  intro h
  exact absurd (h 0 (by decide) 2 (by decide) (by decide)) (by decide)

/-- On three lanes, the edges of a graph are merged. -/
example : ∃ x R, Sets Count.demo (unrelated some fun x => x.getD 0) id (show 0 < 3 by decide) x ∧
    Merges Count.demo (unrelated some fun x => x.getD 0) adding none id (show 0 < 3 by decide) x.g R ∧ R.nodes.Perm Count.demo.nodes := by
  obtain ⟨-, ⟨x, hx, hk⟩, -⟩ := C154_ends (word := some) (hash := fun x : Option Nat => x.getD 0) (addr := id) Count.demo_wf (show 0 < 3 by decide)
  obtain ⟨R, hR⟩ := (C154_returned (o := adding) Count.demo_wf decide_equality (decide_respects _) (fun _ _ h => h) hx hk).2
    (fun _ _ _ _ h => Option.some.inj h)
  exact ⟨x, R, hx, hR, (C154_quotient Count.demo_wf decide_equality (decide_respects _) (fun _ _ h => h) hx hk hR).2.2.2.1 rfl⟩

end Cru.Merge
