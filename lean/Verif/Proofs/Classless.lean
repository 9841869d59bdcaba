import Verif.Model.Classless
import Verif.Props.Merge
import Verif.Proofs.Fold

/-! # Lemmas about merging without a classifier -/

namespace Cru.Merge

open Net

variable {n : Nat} {N V L P X : Type}

/-- A predicate that's always false finds what equality of words finds, because words are compared first. -/
theorem search_false [DecidableEq P] (prop : N → P) (m : N) : ∀ (l : List N) (t : Nat),
    Classify.search prop (fun _ _ _ => (false, 0)) m l t = Classify.search prop (fun _ x y => (decide (x = y), 0)) m l t
  | [], _ => rfl
  | r :: rs, t => by
    unfold Classify.search
    by_cases h : prop m = prop r
    · rw [if_pos h, if_pos h]
    · simp only [h, decide_false, if_false]
      simpa using search_false prop m rs (t + 1)

theorem visit_false [DecidableEq N] [DecidableEq P] (prop : N → P) (hash : P → Nat) :
    visit (n := n) prop hash (fun _ _ _ => (false, 0)) = visit prop hash (fun _ x y => (decide (x = y), 0)) := by
  funext i s m
  simp only [visit, search_false]

theorem task_false [DecidableEq N] [DecidableEq P] (g : Gr N V L) (prop : N → P) (hash : P → Nat) (hn : 0 < n) :
    task g prop hash (fun _ _ _ => (false, 0)) hn = task g prop hash (fun _ x y => (decide (x = y), 0)) hn := by
  simp only [task, visit_false]

/-- The classifier with equality of words. -/
def sameWord [DecidableEq X] (word : N → Option X) (hash : Option X → Nat) : Partition.Classifier N X :=
  { unrelated word hash with equal := fun _ x y => (decide (x = y), 0) }

variable [DecidableEq N] [DecidableEq X] {g : Gr N V L} {word : N → Option X} {hash : Option X → Nat} {o : EdgeOps N L} {addr : N → Nat}
  {vop : Option (List N → V)}

theorem merges_false {hn : 0 < n} {x : Trav.Job n N (Partition.Mem N X)} {R : Gr N V L} :
    Merges g (unrelated word hash) o vop addr hn x R ↔ Merges g (sameWord word hash) o vop addr hn x R := by
  unfold Merges
  simp only [unrelated, sameWord, task_false]

/-- A grouping has no groups with more than one member exactly if no two are related. -/
theorem grouping_single {α : Type} {rel : α → α → Prop} {es : List α} {b : List (List α)} (hs : ∀ x y, rel x y → rel y x)
    (hg : IsGrouping rel es b) (hd : es.Nodup) : (∀ k ∈ b, k.length ≤ 1) ↔ ∀ a ∈ es, ∀ c ∈ es, rel a c → a = c := by
  constructor
  · intro h a ha c hc hr
    obtain ⟨k, hk, hak⟩ := List.mem_flatten.1 (hg.perm.mem_iff.2 ha)
    obtain ⟨k', hk', hck⟩ := List.mem_flatten.1 (hg.perm.mem_iff.2 hc)
    by_cases e : k = k'
    · subst e
      have := h k hk
      match k, this with
      | [], _ => cases hak
      | [z], _ => rw [List.mem_singleton.1 hak, List.mem_singleton.1 hck]
    · exfalso
      have key := hg.across
      have : ∀ {l : List (List α)}, (l.Pairwise fun g g' => ∀ x ∈ g, ∀ y ∈ g', ¬ rel x y) → k ∈ l → k' ∈ l → False := by
        intro l hp
        induction hp with
        | nil => intro h; cases h
        | cons hx _ ih =>
          intro m1 m2
          rcases List.mem_cons.1 m1 with h1 | h1
          · subst h1
            rcases List.mem_cons.1 m2 with rfl | h2
            · exact e rfl
            · exact hx _ h2 a hak c hck hr
          · rcases List.mem_cons.1 m2 with h2 | h2
            · subst h2; exact hx _ h1 c hck a hak (hs _ _ hr)
            · exact ih h1 h2
      exact this key hk hk'
  · intro h k hk
    by_contra hc
    have hsub : ∀ z ∈ k, z ∈ es := fun z hz => hg.perm.mem_iff.1 (List.mem_flatten.2 ⟨k, hk, hz⟩)
    have hnd : k.Nodup := (List.nodup_flatten.1 (hg.perm.nodup_iff.2 hd)).1 k hk
    match k, hc, hk, hsub, hnd with
    | [], hc, _, _, _ => exact hc (by simp)
    | [_], hc, _, _, _ => exact hc (by simp)
    | a :: c :: r, _, hk, hsub, hnd =>
      have hac := h a (hsub a (by simp)) c (hsub c (by simp)) (hg.within _ hk a (by simp) c (by simp))
      rw [hac] at hnd
      simp at hnd

/-- The remaining phases, if classes have one member. -/
theorem merges_single (hw : g.WF) (hl : IsEquality o.eq) (hlh : HashRespects o.hash o.eq) (ha : Function.Injective addr) (hn : 0 < n)
    {x : Trav.Job n N (Partition.Mem N X)} (hx : ∀ i, x.err i = 0)
    (hone : ∀ a ∈ g.nodes, ∀ b ∈ g.nodes, x.mem.prop a = x.mem.prop b → a = b) : ∃ R, Merges g (sameWord word hash) o none addr hn x R := by
  have hs : IsEquality fun a b : Option X => decide (a = b) := decide_equality
  obtain ⟨y, hy, hyd, hyk⟩ := (Trav.ends (visit x.mem.prop hash (fun _ x y => (decide (x = y), 0))) (fun m => hash (x.mem.prop m)) hn
    (next := g.next false) (a := g.base) ⟨fun _ _ => [], 0⟩ (fun m h => (hw.reach m).2 h)).2
  obtain ⟨h0, h1, h2⟩ := grouped (c := sameWord word hash) hw (fun _ _ _ => rfl) hs (decide_respects _) hy hyd hyk
  obtain ⟨h3, -⟩ := quotient_core (fun a => hs.refl _) (fun a b h => hs.symm _ _ h) hw hl hlh ha none h1 h2
  obtain ⟨z, hz, hzd, hzk⟩ := (Trav.ends (fun _ _ _ => ((), 0)) (fun m => hash (x.mem.prop m)) hn
    (next := (fused g o none addr (classes x.mem.prop hash y.g)).next false) (a := g.base) () h3).2
  have hze : ∀ i, z.g.err i = 0 := by
    have := Trav.induct (motive := fun _ err _ => ∀ i, err i = 0) (fun _ => rfl) (by
      intro seen err mem m h _ _ _ i
      by_cases hj : i = Build.lane hn (hash (x.mem.prop m))
      · subst hj; rw [Function.update_self]
      · rw [Function.update_of_ne hj]; exact h i) _ (reach_bag hn hz)
    exact this
  refine ⟨_, hx, y, hy, hyd, h0, hyk, fun _ => ?_, z, hz, hzd, hze, hzk, rfl⟩
  exact (grouping_single (fun _ _ h => hs.symm _ _ h) h1 hw.nodup).2 fun a ha b hb hr => hone a ha b hb (by simpa using hr)

end Cru.Merge

namespace Cru.MergeAcc

open Fold

variable {A U V : Type}

theorem destroyAll_keeps (c : Merger A U V) (d : Option Nat) : ∀ (xs : List (Option (Obj V))) (w : World), w.err ≠ 0 → (destroyAll c d xs w).err = w.err
  | [], _, _ => rfl
  | x :: xs, w, h => by
    have h1 := destroy_err c.fails d x w h
    show (destroyAll c d xs (destroy c.fails d x w)).err = w.err
    rw [destroyAll_keeps c d xs _ (by rw [h1]; exact h), h1]

theorem fuseOne_keeps (c : Merger A U V) (hc : c.vop = none) (k : List (Item V)) (w : World) (h : w.err ≠ 0) : (fuseOne c k w).2.err = w.err := by
  have h1 : (crowded c k w).err = w.err := by
    unfold crowded
    split_ifs
    · simp [World.raise, h]
    · rfl
  unfold fuseOne
  simp only [hc]
  rw [if_neg (by rw [h1]; exact fun hx => h hx.1)]
  show (destroyAll c c.gV _ (crowded c k w)).err = w.err
  rw [destroyAll_keeps _ _ _ _ (by rw [h1]; exact h), h1]

theorem fuse_keeps (c : Merger A U V) (hc : c.vop = none) : ∀ (ks : List (List (Item V))) (w : World), w.err ≠ 0 → (fuse c ks w).2.err = w.err
  | [], _, _ => rfl
  | k :: ks, w, h => by
    have h1 := fuseOne_keeps c hc k w h
    show (fuse c ks (fuseOne c k w).2).2.err = w.err
    rw [fuse_keeps c hc ks _ (by rw [h1]; exact h), h1]

/-- Without a vertex operation, the error is about a class with more than one member, if there is one. -/
theorem fuse_error (c : Merger A U V) (hc : c.vop = none) : ∀ (ks : List (List (Item V))) (w : World), w.err = 0 →
    ((∀ k ∈ ks, k.length ≤ 1) → fuse c ks w = (ks, w)) ∧ ((∃ k ∈ ks, 1 < k.length) → (fuse c ks w).2.err = -1144)
  | [], w, _ => ⟨fun _ => rfl, fun ⟨_, h, _⟩ => by cases h⟩
  | k :: ks, w, h => by
    obtain ⟨i1, i2⟩ := fuse_error c hc ks w h
    by_cases hk : 1 < k.length
    · have h1 : (crowded c k w).err = -1144 := by
        unfold crowded
        rw [if_pos ⟨by rw [hc]; rfl, hk⟩]
        simp [World.raise, h]
      have h2 : (fuseOne c k w).2.err = -1144 := by
        unfold fuseOne
        simp only [hc]
        rw [if_neg (by rw [h1]; exact fun hx => absurd hx.1 (by decide))]
        show (destroyAll c c.gV _ (crowded c k w)).err = -1144
        rw [destroyAll_keeps _ _ _ _ (by rw [h1]; decide), h1]
      refine ⟨fun hx => absurd (hx k List.mem_cons_self) (by omega), fun _ => ?_⟩
      show (fuse c ks (fuseOne c k w).2).2.err = -1144
      rw [fuse_keeps c hc ks _ (by rw [h2]; decide), h2]
    · have h1 : fuseOne c k w = (k, w) := by
        have : crowded c k w = w := by unfold crowded; rw [if_neg (fun hx => hk hx.2)]
        unfold fuseOne
        simp only [this]
        rw [if_pos ⟨h, by rw [hc]; rfl⟩]
      have h2 : fuse c (k :: ks) w = (k :: (fuse c ks w).1, (fuse c ks w).2) := by
        show ((fuseOne c k w).1 :: (fuse c ks (fuseOne c k w).2).1, (fuse c ks (fuseOne c k w).2).2) = _
        rw [h1]
      rw [h2]
      refine ⟨fun hx => by rw [i1 fun k' hk' => hx k' (List.mem_cons_of_mem _ hk')], ?_⟩
      rintro ⟨k', hk', hl⟩
      rcases List.mem_cons.1 hk' with rfl | hk'
      · exact absurd hl hk
      · exact i2 ⟨k', hk', hl⟩

end Cru.MergeAcc
