import Verif.Proofs.MergeAcc
import Verif.Proofs.Merge
import Verif.Proofs.Cull
import Verif.Props.Count
import Verif.Props.Fold

/-! # C116: what `cru_merged` does with storage -/

namespace Cru.MergeAcc

open Fold Net

variable {A U V : Type} {n : Nat} {N W L P : Type}

/-! ## Classes made when comparisons may fail -/

theorem search_mem [DecidableEq P] {prop : N → P} {eq : Nat → P → P → Bool × Int} {m r : N} {l : List N} {t : Nat}
    (h : (Classify.search prop eq m l t).1 = some r) : r ∈ l := by
  induction l generalizing t with
  | nil => simp [Classify.search] at h
  | cons a l ih =>
    unfold Classify.search at h
    split_ifs at h
    · simp at h; simp [h]
    · dsimp only at h
      split_ifs at h
      · simp at h; simp [h]
      · simp at h; simp [h]
      · exact List.mem_cons_of_mem _ (ih h)

/-- What holds while vertices are merged, whatever comparisons do. -/
structure Kept (prop : N → P) (hash : P → Nat) (seen : Fin n → List N) (s : Merge.Mem n N) : Prop where
  nodup : ∀ i, (seen i).Nodup
  perm : ∀ i h, (s.bins i h).flatten.Perm ((seen i).filter fun m => decide (hash (prop m) = h))
  ne : ∀ i h, ∀ k ∈ s.bins i h, k ≠ []

theorem assimilated_perm [DecidableEq N] {bin : List (List N)} {r m : N} (hr : r ∈ bin.filterMap List.head?) (hd : bin.flatten.Nodup) :
    (bin.map (Merge.assimilated r m)).flatten.Perm (bin.flatten ++ [m]) := by
  obtain ⟨g, hg, hh⟩ := List.mem_filterMap.1 hr
  obtain ⟨t, rfl⟩ : ∃ t, g = r :: t := by
    cases g with
    | nil => cases hh
    | cons a t => simp at hh; subst hh; exact ⟨t, rfl⟩
  obtain ⟨pre, post, rfl⟩ := List.append_of_mem hg
  simp only [List.flatten_append, List.flatten_cons, List.nodup_append, List.mem_append, List.mem_cons] at hd
  have hpre : ∀ g ∈ pre, g.head? ≠ some r := by
    intro g hg h
    exact hd.2.2 r (List.mem_flatten.2 ⟨g, hg, List.mem_of_mem_head? (by simp [h])⟩) r (.inl (.inl rfl)) rfl
  have hpost : ∀ g ∈ post, g.head? ≠ some r := by
    intro g hg h
    exact hd.2.1.2.2 r (.inl rfl) r (List.mem_flatten.2 ⟨g, hg, List.mem_of_mem_head? (by simp [h])⟩) rfl
  rw [List.map_append, List.map_cons, Merge.assimilated_other hpre, Merge.assimilated_other hpost]
  rw [List.perm_iff_count]
  intro a
  simp only [Merge.assimilated, if_true, List.flatten_append, List.flatten_cons, List.count_append, List.count_cons, List.count_nil]
  omega

theorem kept [DecidableEq N] [DecidableEq P] {g : Gr N W L} {prop : N → P} {hash : P → Nat} {eq : Nat → P → P → Bool × Int} {hn : 0 < n} :
    ∀ x, Bag.Reach (Merge.mergingTask g prop hash eq hn) g.base Merge.mergingStart x → Kept prop hash x.1.seen x.1.mem.rest := by
  refine Cull.induct_first (motive := fun seen _ s => Kept prop hash seen s) ?_ ?_
  · exact ⟨fun _ => by simp, fun _ _ => by simp, fun _ _ k hk => absurd hk (by simp)⟩
  · intro seen err s m hi _ _ hm _
    generalize Build.lane hn (hash (prop m)) = i at *
    set bin := s.bins i (hash (prop m)) with hbin
    set x := Classify.search prop eq m (bin.filterMap List.head?) s.clock with hx
    have hd : bin.flatten.Nodup := (hi.perm i _).nodup_iff.2 ((hi.nodup i).filter _)
    have hnew : ∀ bin', (Merge.visit prop hash eq i s m).1.bins = Function.update s.bins i (Function.update (s.bins i) (hash (prop m)) bin') →
        bin'.flatten.Perm (bin.flatten ++ [m]) → (∀ k ∈ bin', k ≠ []) →
        Kept prop hash (Function.update seen i (seen i ++ [m])) (Merge.visit prop hash eq i s m).1 := by
      intro bin' hb hp hne
      refine ⟨?_, ?_, ?_⟩
      · intro j
        by_cases hj : j = i
        · subst hj; rw [Function.update_self]
          exact List.nodup_append.2 ⟨hi.nodup j, by simp, fun a ha b hb hab => hm (by simp at hb; rw [← hb, ← hab]; exact ha)⟩
        · rw [Function.update_of_ne hj]; exact hi.nodup j
      · intro j h
        rw [hb]
        by_cases hj : j = i
        · subst hj
          simp only [Function.update_self]
          by_cases hq : h = hash (prop m)
          · subst hq
            rw [Function.update_self]
            refine hp.trans ?_
            rw [List.filter_append]
            simpa using (hi.perm j (hash (prop m))).append_right [m]
          · rw [Function.update_of_ne hq, List.filter_append]
            simpa [Ne.symm hq] using hi.perm j h
        · simp only [Function.update_of_ne hj]; exact hi.perm j h
      · intro j h
        rw [hb]
        by_cases hj : j = i
        · subst hj
          simp only [Function.update_self]
          by_cases hq : h = hash (prop m)
          · subst hq; rw [Function.update_self]; exact hne
          · rw [Function.update_of_ne hq]; exact hi.ne j h
        · simp only [Function.update_of_ne hj]; exact hi.ne j h
    rcases hr : x.1 with _ | r
    · refine hnew (bin ++ [[m]]) ?_ (by simp) ?_
      · unfold Merge.visit; simp only; rw [← hbin, ← hx, hr]
      · intro k hk
        rcases List.mem_append.1 hk with hk | hk
        · exact hi.ne i _ k hk
        · simp at hk; simp [hk]
    · refine hnew (bin.map (Merge.assimilated r m)) ?_ (assimilated_perm (search_mem hr) hd) ?_
      · unfold Merge.visit; simp only; rw [← hbin, ← hx, hr]
      · intro k hk
        obtain ⟨l, hl, rfl⟩ := List.mem_map.1 hk
        have := hi.ne i _ l hl
        cases l with
        | nil => exact absurd rfl this
        | cons a t => simp only [Merge.assimilated]; split <;> simp

theorem unpacked_eq (bins : Nat → List (List N)) (ks : List Nat) : Merge.unpacked bins ks = ks.reverse.flatMap bins := by
  unfold Merge.unpacked; rw [foldl_append_front bins]; simp

theorem unpacked_perm {prop : N → P} {hash : P → Nat} {seen : Fin n → List N} {s : Merge.Mem n N} (hk : Kept prop hash seen s) (i : Fin n) :
    (Merge.unpacked (s.bins i) (judyKeys (fun m => hash (prop m)) (seen i))).flatten.Perm (seen i) := by
  rw [unpacked_eq]
  refine List.Perm.trans ?_ (marshalled_grouping (fun m => hash (prop m)) (seen i)).perm
  have e1 : marshalled (fun m => hash (prop m)) (seen i) =
      (judyKeys (fun m => hash (prop m)) (seen i)).reverse.flatMap (fun k => [judyBin (fun m => hash (prop m)) (seen i) k]) := by
    have := foldl_append_front (fun k => [judyBin (fun m => hash (prop m)) (seen i) k]) (judyKeys (fun m => hash (prop m)) (seen i)) []
    simpa [marshalled] using this
  rw [e1]
  generalize (judyKeys (fun m => hash (prop m)) (seen i)).reverse = ks
  induction ks with
  | nil => simp
  | cons k ks ih =>
    simp only [List.flatMap_cons, List.flatten_append, List.flatten_cons, List.flatten_nil, List.append_nil]
    refine List.Perm.append ?_ ih
    exact (hk.perm i k).trans (List.reverse_perm _).symm

/-! ## Storage held by workers -/

theorem storage_perm (v e p : Option Nat) {k l : List (Item V)} (h : k.Perm l) : storage v e p k = storage v e p l := by
  unfold storage; exact (h.map (Item.held v e p)).foldr_eq (lcomm := ⟨fun a b c => add_left_comm a b c⟩) 0

theorem ports_held [DecidableEq N] [DecidableEq P] {g : Gr N W L} (hw : g.WF) {prop : N → P} {hash : P → Nat}
    {eq : Nat → P → P → Bool × Int} {hn : 0 < n} {y : State n N (Trav.Job n N (Cull.Mem n N (Merge.Mem n N)))}
    (hy : Net.Reach (Merge.mergingTask g prop hash eq hn) g.base Merge.mergingStart y) (hd : y.main = .done) (c : Merger A U V)
    (item : N → Item V) :
    ((portsOf item prop hash y.g).map (Port.held c c.gV)).sum = storage c.gV c.gE c.pFree (g.nodes.map item) ∧
    ∀ p ∈ portsOf item prop hash y.g, ∀ k ∈ p.deferred, k ≠ [] := by
  have hk := kept _ (reach_bag hn hy)
  refine ⟨?_, ?_⟩
  · have hp := Cull.done_perm hy hd ⟨hw.nodup, hw.reach⟩
    rw [← storage_perm _ _ _ (hp.map item)]
    unfold portsOf
    generalize List.finRange n = is
    induction is with
    | nil => rfl
    | cons i is ih =>
      simp only [List.map_cons, List.sum_cons, ih, List.flatMap_cons, List.map_append, storage_append]
      congr 1
      unfold Port.held
      dsimp only
      rw [storage_nil, add_zero, ← List.map_flatten, storage_perm _ _ _ ((unpacked_perm hk i).map item),
        storage_perm _ _ _ ((List.reverse_perm (y.g.mem.culled i)).map item)]
  · intro p hp k hk'
    obtain ⟨i, -, rfl⟩ := List.mem_map.1 hp
    dsimp only at hk'
    rw [unpacked_eq] at hk'
    obtain ⟨l, hl, rfl⟩ := List.mem_map.1 hk'
    obtain ⟨h, -, hl⟩ := List.mem_flatMap.1 hl
    simpa using hk.ne i h l hl

/-! ## C116 -/

/-- **C116.** Let all workers be done with the first traversal of `cru_merged`, in any way: comparisons may have failed or the operation
may have been killed.  Whatever user functions and destructors do from then on, everything that was made is an entry of its own, and if
`cru_merged` succeeds, everything was either passed to its own destructor exactly once or belongs to the result, to be passed to the
destructors given for it, and no properties remain.  If it fails, everything was passed to its own destructor exactly once, except that
nothing is said for the error `CRU_BADGPH` (-513).  This holds unless the edge operation has no destructor for its results while the graph
has one for labels. -/
theorem C116_once [DecidableEq N] [DecidableEq P] {g : Gr N W L} (hw : g.WF) {prop : N → P} {hash : P → Nat}
    {eq : Nat → P → P → Bool × Int} {hn : 0 < n} {y : State n N (Trav.Job n N (Cull.Mem n N (Merge.Mem n N)))}
    (hy : Net.Reach (Merge.mergingTask g prop hash eq hn) g.base Merge.mergingStart y) (hd : y.main = .done)
    (c : Merger A U V) (hc : ∀ m, c.eop = some m → m.rFree = none → c.gE = none) (item : N → Item V) (w : World) (hwf : w.WF)
    (hm : w.made = w.freed + storage c.gV c.gE c.pFree (g.nodes.map item))
    (first second third last : Int) (unstarted reported : Bool) (visited : Item V → Bool) :
    let r := merged c first second third last unstarted reported visited (portsOf item prop hash y.g) w
    (r.2.made.map Prod.fst).Nodup ∧
    (r.2.err = 0 → r.2.made = r.2.freed + storage c.kV c.sE none r.1 ∧ ∀ m ∈ r.1, m.prop = none) ∧
    (r.2.err ≠ 0 → r.2.err ≠ -513 → r.1 = [] ∧ r.2.made = r.2.freed) := by
  intro r
  obtain ⟨hh, hne⟩ := ports_held hw hy hd c item
  have hd' : c.dE = c.sE := by
    unfold Merger.dE Merger.sE
    cases he : c.eop with
    | none => rfl
    | some m =>
      dsimp only
      cases hr : m.rFree with
      | none => simp [hc m he hr]
      | some d => simp
  set x := passes c first second third unstarted visited (portsOf item prop hash y.g) w with hx
  have hrx : r = finish c reported last x := rfl
  have h1 := passes_bal c first second third unstarted visited _ hne w
  rw [← hx, hh] at h1
  have hprop : ∀ m ∈ r.1, m.prop = none := by
    rw [hrx]
    unfold finish
    dsimp only
    generalize (unpropped c x.1 _).raise last = w2
    intro m hm
    split_ifs at hm
    · obtain ⟨_, -, rfl⟩ := List.mem_map.1 hm; rfl
    · simp at hm
    · simp at hm
  have hledger : r.2.err ≠ -513 → r.2.made = r.2.freed + storage c.kV c.sE c.pFree r.1 := by
    intro hb
    have h2 := (h1.trans (finish_bal c hd' reported last x hb)).ledger
    rw [← hrx] at h2
    rw [hm] at h2
    have : (w.freed + storage c.gV c.gE c.pFree (g.nodes.map item)) + r.2.made =
        (w.freed + storage c.gV c.gE c.pFree (g.nodes.map item)) + (r.2.freed + storage c.kV c.sE c.pFree r.1) := by
      calc _ = r.2.made + w.freed + storage c.gV c.gE c.pFree (g.nodes.map item) := by abel
        _ = _ := h2
        _ = _ := by abel
    exact add_left_cancel this
  have hnop : storage c.kV c.sE c.pFree r.1 = storage c.kV c.sE none r.1 := by
    generalize r.1 = k at hprop
    induction k with
    | nil => rfl
    | cons m k ih =>
      rw [storage_cons, storage_cons, ih fun m hm => hprop m (List.mem_cons_of_mem _ hm)]
      simp [Item.held, hprop m (by simp), owned_none]
  refine ⟨?_, ?_, ?_⟩
  · -- the names of what was made
    have hwf' : r.2.WF := by
      have hx' := h1.wf hwf
      by_cases hb : r.2.err ≠ -513
      · exact (finish_bal c hd' reported last x hb).wf hx'
      · push Not at hb
        rw [hrx] at hb ⊢
        unfold finish at hb ⊢
        dsimp only at hb ⊢
        have h2 := (demerges_bal c hd' x.2.1 x.2.2).wf hx'
        generalize x.2.1.foldl (fun w p => demerge c p w) x.2.2 = w0 at *
        have h3 : World.WF (if reported then w0 else { w0 with err := x.2.2.err }) := by
          split
          · exact h2
          · exact ⟨h2.past, h2.nodup⟩
        generalize (if reported then w0 else { w0 with err := x.2.2.err }) = w1 at *
        have h4 := (unpropped_bal c x.1 w1).wf h3
        have h5 : ((unpropped c x.1 w1).raise last).WF := ⟨h4.past, h4.nodup⟩
        generalize (unpropped c x.1 w1).raise last = w2 at *
        split
        · exact h5
        split
        · exact h5
        · exact (freeNodes_bal c _ _ _ _).wf h5
    exact hwf'.nodup
  · intro he
    refine ⟨?_, hprop⟩
    rw [hledger (by rw [he]; decide), hnop]
  · intro he hb
    have hnil : r.1 = [] := by
      rw [hrx] at he ⊢
      unfold finish at he ⊢
      dsimp only at he ⊢
      generalize (unpropped c x.1 _).raise last = w2 at he ⊢
      split_ifs at he ⊢ with a b
      · exact absurd a he
      · rfl
      · rfl
    refine ⟨hnil, ?_⟩
    rw [hledger hb, hnil, storage_nil, add_zero]

/-- **C116, the exception.** If the edge operation has no destructor and the graph has a destructor `d` for labels, then every label
computed by the operation for a class that isn't returned is passed to `d`, which is the destructor of other labels. -/
theorem C116_wrong_destructor (c : Merger A U V) {m : CruFold A V} (he : c.eop = some m) (hr : m.rFree = none) {d : Nat}
    (hg : c.gE = some d) (p : Port V) (w : World) {k : Item V} (hk : k ∈ p.survivors) {e : Edge V} (hek : e ∈ k.out) {o : Obj V}
    (ho : e.label = some o) : (o.id, d) ∈ (demerge c p w).freed := by
  have hdE : c.dE = some d := by simp [Merger.dE, he, hr, hg]
  have hmono : ∀ (dd : Option Nat) (x : Option (Obj V)) (w : World), (o.id, d) ∈ w.freed → (o.id, d) ∈ (destroy c.fails dd x w).freed := by
    intro dd x w h
    cases dd <;> cases x <;> simp [destroy, World.raise, h]
  have hall : ∀ (dd : Option Nat) (xs : List (Option (Obj V))) (w : World), (o.id, d) ∈ w.freed →
      (o.id, d) ∈ (destroyAll c dd xs w).freed := by
    intro dd xs
    induction xs with
    | nil => intro w h; exact h
    | cons x xs ih => intro w h; exact ih _ (hmono _ _ _ h)
  have hlab : ∀ (es : List (Edge V)) (w : World), e ∈ es → (o.id, d) ∈ (destroyAll c (some d) (labels es) w).freed := by
    intro es
    induction es with
    | nil => intro w h; simp at h
    | cons a es ih =>
      intro w h
      rcases List.mem_cons.1 h with rfl | h
      · refine hall _ (labels es) (destroy c.fails (some d) e.label w) ?_
        rw [ho]; simp [destroy, World.raise]
      · exact ih _ h
  have hfree : ∀ (ks : List (Item V)) (w : World), (o.id, d) ∈ w.freed → (o.id, d) ∈ (freeNodes c c.kV (some d) ks w).freed := by
    intro ks
    induction ks with
    | nil => intro w h; exact h
    | cons a ks ih => intro w h; exact ih _ (hmono _ _ _ (hall _ _ _ h))
  unfold demerge discard
  rw [hdE]
  generalize unpropped c p.survivors _ = w'
  revert w'
  generalize p.survivors = ks at hk
  induction ks with
  | nil => simp at hk
  | cons a ks ih =>
    intro w'
    rcases List.mem_cons.1 hk with rfl | hk
    · exact hfree ks _ (hmono _ _ _ (hlab _ _ hek))
    · exact ih hk _

/-! Demonstration: the vertices of a graph merged according to whether they're odd. -/

/-- The storage of a vertex. -/
def demoItem (m : Nat) : Item Nat :=
  ⟨some ⟨m, m⟩, some ⟨10 + m, m % 2⟩, ((Count.demo.out m).zipIdx).map fun e => ⟨some ⟨20 + 5 * m + e.2, 1⟩, e.1.2⟩⟩

/-- Vertices and labels are added up; `f` is the destructor for sums of labels, `b` says whether the pruner lets an edge pass, and `late` is
the time from which on comparisons fail. -/
def demoMerger (f : Option Nat) (b : Edge Nat → Bool) (late : Nat) : Merger Nat Nat Nat where
  gV := some 11
  gE := some 12
  pFree := some 13
  vop := some sumProp
  eop := some { sumFold with rFree := f }
  pruner := some fun t e => (b e, if late ≤ t then 7 else 0)
  view m := ⟨(m.vertex.map Obj.val).getD 0, [], m.out.map fun e => (e.label.map Obj.val).getD 0⟩
  operand e := (e.label.map Obj.val).getD 0
  cls := (· % 2)
  recording _ _ := 0
  repeated _ _ _ := (false, 0)
  fails _ _ := 0

/-- The world before the merge. -/
def demoWorld : World := ⟨100, 0, storage (some 11) (some 12) (some 13) (Count.demo.nodes.map demoItem), 0, false⟩

theorem demoWorld_wf : demoWorld.WF := ⟨by decide +kernel, by decide +kernel⟩

/-- The end of the first traversal. -/
def demoRun : State 2 Nat (Trav.Job 2 Nat (Cull.Mem 2 Nat (Merge.Mem 2 Nat))) :=
  greedy (Merge.mergingTask Count.demo (fun m => m % 2) id (fun _ x y => (decide (x = y), 0)) (show 0 < 2 by decide)) 0 200
    (init Merge.mergingStart)

/-- The end of the merge, where the class of the base vertex is reached, and the other if `both`. -/
def demoMerged (f : Option Nat) (b : Edge Nat → Bool) (late : Nat) (both : Bool) : List (Item Nat) × World :=
  merged (demoMerger f b late) 0 0 0 0 false false (fun m => m.vertex.any fun o => both || decide (o.val = 88))
    (portsOf demoItem (fun m => m % 2) id demoRun.g) demoWorld

/-- Non-vacuity of C116: the hypotheses are met, there's a case in which two classes are returned and everything else has been
destroyed, and one in which the pruner fails. -/
example : Net.Reach (Merge.mergingTask Count.demo (fun m => m % 2) id (fun _ x y => (decide (x = y), 0)) (show 0 < 2 by decide))
      Count.demo.base Merge.mergingStart demoRun ∧ demoRun.main = .done ∧ demoWorld.WF ∧
    demoWorld.made = demoWorld.freed + storage (some 11) (some 12) (some 13) (Count.demo.nodes.map demoItem) ∧
    ((demoMerged (some 1) (fun _ => true) 1000 true).2.err = 0 ∧ (demoMerged (some 1) (fun _ => true) 1000 true).1.length = 2 ∧
      (demoMerged (some 1) (fun _ => true) 1000 true).2.made.card = 56 ∧
      (demoMerged (some 1) (fun _ => true) 1000 true).2.freed.card = 50) ∧
    ((demoMerged (some 1) (fun _ => true) 130 true).2.err = 7 ∧ (demoMerged (some 1) (fun _ => true) 130 true).2.freed.card = 40) :=
  ⟨greedy_reach _ _ .init, by decide +kernel, demoWorld_wf, by simp [demoWorld], by decide +kernel, by decide +kernel⟩

/-- **C116, the exception can be met.** The merge is successful, the pruner deletes all edges to odd vertices, the edge operation has no
destructor, and a label computed by it, which isn't among the storage that has a destructor, is passed to the destructor of the graph
that was merged. -/
theorem C116_wrong_happens :
    let r := demoMerged none (fun e => decide (e.remote % 2 = 0)) 1000 false
    r.2.err = 0 ∧ r.1.length = 1 ∧ (∀ m ∈ r.1, ∀ e ∈ m.out, e.remote = 0) ∧ ∃ x ∈ r.2.freed, x.2 = 12 ∧ ∀ y ∈ r.2.made, y.1 ≠ x.1 :=
  ⟨by decide +kernel, by decide +kernel, by decide +kernel, (171, 12), by decide +kernel, rfl, by decide +kernel⟩

end Cru.MergeAcc
