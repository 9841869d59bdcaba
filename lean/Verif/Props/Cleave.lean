import Verif.Model.Cleave
import Verif.Spec.Words
import Verif.Props.Split
import Verif.Props.Thin

/-! # C165: splitting with functions left out -/

namespace Cru.Repl

open Infer

variable {n : Nat} {N : Type} [DecidableEq N] {u : Env} {q : Preds} {g : Gr N Word Word} {addr : Split.Twin N → Nat} {hn : 0 < n} {f : Option Nat}
  {limit : Nat} {r : Except Int (Gr (Split.Twin N) Word Word)} {R : Gr (Split.Twin N) Word Word}

/-- A splitter with nothing but a predicate to say which vertices are to be split, or with nothing at all. -/
def cutOnly (f : Option Nat) : Infer.Splitter :=
  ⟨none, none, f.map .user, ⟨noFold, noFold, noFold⟩, ⟨none, none⟩, ⟨none, none⟩, ⟨none, none⟩, ⟨none, none⟩⟩

/-- Whether a vertex is to be split: all of them are if there's no predicate. -/
def cuts (q : Preds) : Option Nat → Word → Bool
  | none, _ => true
  | some i, v => q.bpred i v v

/-- The signature of a graph of scalars, to which equality and the hash are filled in. -/
def scalars : Sig := ⟨⟨none, none⟩, ⟨none, none⟩, none, none⟩

/-- The labeler that's filled in. -/
private def copier : Ctop := ⟨some .trueTpred, some .identityTop⟩

/-- The property that's filled in. -/
private def itself : Prp := ⟨{ noFold with map := some .identityTop, reduction := some .undefinedBop }, noFold, noFold⟩

/-- The splitter with everything filled in. -/
private def full (f : Option Nat) : Infer.Splitter :=
  ⟨some .identityBop, some .identityBop, some (f.elim .trueBpred .user), itself, copier, copier, copier, copier⟩

private theorem cutOnly_full : ∃ s', inferredSplitter (cutOnly f) scalars = .ok (full f, s') ∧ s'.vFree = none := by
  cases f <;> exact ⟨_, rfl, rfl⟩

private theorem full_fissile (m : N) : Split.fissile (splitterOf u q (full f)) g (Split.property (splitterOf u q (full f)) g) m = cuts q f (g.vertex m) := by
  cases f <;> rfl

private theorem full_vertices (t : Split.Twin N) : Split.vertices (splitterOf u q (full f)) g (Split.property (splitterOf u q (full f)) g) t = g.vertex t.1 := by
  unfold Split.vertices
  split
  · rfl
  · split <;> rfl

private theorem full_labels : ∀ k ∈ [(splitterOf u q (full f)).outAna, (splitterOf u q (full f)).outCata, (splitterOf u q (full f)).inAna,
    (splitterOf u q (full f)).inCata], ∀ p l t, k.label p l t = some l := by
  simp only [List.forall_mem_cons, List.not_mem_nil, false_imp_iff, forall_const, and_true]
  exact ⟨fun _ _ _ => rfl, fun _ _ _ => rfl, fun _ _ _ => rfl, fun _ _ _ => rfl, fun _ => trivial⟩

/-- **C165.** If a graph of scalars is split with no functions given other than possibly the predicate, the result has each vertex of the given graph, and
two of each that's to be split and can be reached by an edge, and each of its edges from and to all vertices in place of those that it connected.  The
base stays as it is. -/
theorem C165_copies (hw : g.WF) (h : SplitBy u q (cutOnly f) scalars limit g addr hn 0 0 0 r) :
    (∃ R, r = .ok R ∧ R.WF ∧ R.base = (g.base, false) ∧
      (∀ m b, (m, b) ∈ R.nodes ↔ m ∈ g.nodes ∧ (b = true → cuts q f (g.vertex m) = true ∧ ∃ k ∈ g.nodes, ∃ l, (l, m) ∈ g.out k)) ∧
      ∀ t ∈ R.nodes, R.vertex t = g.vertex t.1 ∧ (R.out t).Perm ((g.out t.1).flatMap fun e =>
        (e.1, (e.2, false)) :: if cuts q f (g.vertex e.2) then [(e.1, (e.2, true))] else [])) ∨
    r = .error Build.intOvf ∧ limit ≠ 0 := by
  unfold SplitBy at h
  obtain ⟨s', hs, hv⟩ := cutOnly_full (f := f)
  rw [hs] at h
  dsimp only at h
  rcases Split.C37_split hw h with ⟨R, cp, rfl, h1, -⟩ | h1
  · obtain ⟨hR, hb⟩ := Split.C37_wf hw h
    have ho := Split.C37_default hw full_labels h
    simp only [full_fissile] at ho
    have hstep : ∀ t ∈ R.nodes, ∀ l x, (l, x) ∈ R.out t ↔ (l, x.1) ∈ g.out t.1 ∧ (x.2 = true → cuts q f (g.vertex x.1) = true) := by
      intro t ht l x
      rw [(ho t ht).mem_iff, List.mem_flatMap]
      obtain ⟨m, b⟩ := x
      constructor
      · rintro ⟨e, he, hx⟩
        rcases List.mem_cons.1 hx with hx | hx
        · cases hx
          exact ⟨he, fun h => by cases h⟩
        · by_cases hc : cuts q f (g.vertex e.2) = true
          · rw [if_pos hc, List.mem_singleton] at hx
            cases hx
            exact ⟨he, fun _ => hc⟩
          · rw [if_neg hc] at hx
            cases hx
      · rintro ⟨he, hc⟩
        refine ⟨(l, m), he, ?_⟩
        cases b
        · exact List.mem_cons_self
        · rw [if_pos (hc rfl)]
          exact List.mem_cons_of_mem _ (List.mem_singleton.2 rfl)
    have hin : ∀ t, t ∈ R.nodes → t.1 ∈ g.nodes ∧ (t.2 = true → cuts q f (g.vertex t.1) = true ∧ ∃ k ∈ g.nodes, ∃ l, (l, t.1) ∈ g.out k) := by
      intro t ht
      have ht' := (hR.reach t).1 ht
      rw [hb] at ht'
      induction ht' with
      | refl => exact ⟨(hw.reach _).2 .refl, fun h => by cases h⟩
      | @tail x y hx hxy ih =>
        have hx' : x ∈ R.nodes := (hR.reach _).2 (by rw [hb]; exact hx)
        obtain ⟨i1, -⟩ := ih hx'
        obtain ⟨e, he, rfl⟩ := List.mem_map.1 hxy
        obtain ⟨h2, h3⟩ := (hstep x hx' e.1 e.2).1 he
        exact ⟨(hw.reach _).2 (((hw.reach _).1 i1).tail (List.mem_map.2 ⟨_, h2, rfl⟩)), fun hc => ⟨h3 hc, x.1, i1, e.1, h2⟩⟩
    have hgo : ∀ t ∈ R.nodes, ∀ l x, (l, x) ∈ R.out t → x ∈ R.nodes := fun t ht l x hx =>
      (hR.reach _).2 (((hR.reach _).1 ht).tail (List.mem_map.2 ⟨_, hx, rfl⟩))
    have hf : ∀ m ∈ g.nodes, (m, false) ∈ R.nodes := by
      intro m hm
      have := (hw.reach m).1 hm
      clear hm
      induction this with
      | refl => rw [← hb]; exact (hR.reach _).2 .refl
      | @tail x y hx hxy ih =>
        obtain ⟨e, he, rfl⟩ := List.mem_map.1 hxy
        exact hgo _ ih e.1 (e.2, false) ((hstep _ ih _ _).2 ⟨he, fun h => by cases h⟩)
    refine .inl ⟨R, rfl, hR, hb, fun m b => ⟨hin (m, b), ?_⟩, fun t ht => ⟨(h1.vertex t ht).trans (full_vertices t), ho t ht⟩⟩
    rintro ⟨hm, hc⟩
    cases b
    · exact hf m hm
    · obtain ⟨hc, k, hk, l, hl⟩ := hc rfl
      exact hgo _ (hf k hk) l (m, true) ((hstep _ (hf k hk) _ _).2 ⟨hl, fun _ => hc⟩)
  · exact .inr h1

/-- **C165.** The words of the result are those of the given graph: those that end at a vertex end at the vertices in its place. -/
theorem C165_words (hw : g.WF) (h : SplitBy u q (cutOnly f) scalars limit g addr hn 0 0 0 (.ok R)) (w : List Word) (m : N) :
    (Ends R w (m, false) ↔ Ends g w m) ∧ (Ends R w (m, true) ↔ w ≠ [] ∧ cuts q f (g.vertex m) = true ∧ Ends g w m) := by
  rcases C165_copies hw h with ⟨R', hr, hR, hb, hn, ho⟩ | ⟨hr, -⟩
  swap
  · cases hr
  cases hr
  have hstep : ∀ t ∈ R.nodes, ∀ l x, (l, x) ∈ R.out t ↔ (l, x.1) ∈ g.out t.1 ∧ (x.2 = true → cuts q f (g.vertex x.1) = true) := by
    intro t ht l x
    rw [(ho t ht).2.mem_iff, List.mem_flatMap]
    obtain ⟨m, b⟩ := x
    constructor
    · rintro ⟨e, he, hx⟩
      rcases List.mem_cons.1 hx with hx | hx
      · cases hx
        exact ⟨he, fun h => by cases h⟩
      · by_cases hc : cuts q f (g.vertex e.2) = true
        · rw [if_pos hc, List.mem_singleton] at hx
          cases hx
          exact ⟨he, fun _ => hc⟩
        · rw [if_neg hc] at hx
          cases hx
    · rintro ⟨he, hc⟩
      refine ⟨(l, m), he, ?_⟩
      cases b
      · exact List.mem_cons_self
      · rw [if_pos (hc rfl)]
        exact List.mem_cons_of_mem _ (List.mem_singleton.2 rfl)
  have hgo : ∀ t ∈ R.nodes, ∀ l x, (l, x) ∈ R.out t → x ∈ R.nodes := fun t ht l x hx =>
    (hR.reach _).2 (((hR.reach _).1 ht).tail (List.mem_map.2 ⟨_, hx, rfl⟩))
  have key : ∀ (w : List Word) (s t : Split.Twin N), s ∈ R.nodes →
      (Spells R.out s w t ↔ if w = [] then s = t else Spells g.out s.1 w t.1 ∧ (t.2 = true → cuts q f (g.vertex t.1) = true)) := by
    intro w
    induction w with
    | nil =>
      intro s t _
      rw [if_pos rfl]
      exact ⟨fun h => by cases h; rfl, fun h => h ▸ .nil _⟩
    | cons l w ih =>
      intro s t hs
      rw [if_neg (by simp)]
      constructor
      · intro h
        cases h with
        | @cons _ x _ _ _ h1 h2 =>
          obtain ⟨h3, h4⟩ := (hstep s hs l x).1 h1
          have h5 := (ih x t (hgo s hs l x h1)).1 h2
          by_cases hw0 : w = []
          · rw [if_pos hw0] at h5
            subst h5 hw0
            exact ⟨.cons h3 (.nil _), h4⟩
          · rw [if_neg hw0] at h5
            exact ⟨.cons h3 h5.1, h5.2⟩
      · rintro ⟨h, hc⟩
        cases h with
        | @cons _ x _ _ _ h1 h2 =>
          by_cases hw0 : w = []
          · subst hw0
            cases h2
            exact .cons ((hstep s hs l t).2 ⟨h1, hc⟩) (.nil _)
          · have h3 := (hstep s hs l (x, false)).2 ⟨h1, fun h => by cases h⟩
            exact .cons h3 ((ih (x, false) t (hgo s hs l _ h3)).2 (by rw [if_neg hw0]; exact ⟨h2, hc⟩))
  have hbase : R.base ∈ R.nodes := (hR.reach _).2 .refl
  unfold Ends
  rw [key w _ _ hbase, key w _ _ hbase, hb]
  by_cases hw0 : w = []
  · subst hw0
    simp only [if_true]
    refine ⟨⟨fun h => ?_, fun h => ?_⟩, fun h => (by cases h), fun h => absurd rfl h.1⟩
    · cases h; exact .nil _
    · cases h; rfl
  · rw [if_neg hw0, if_neg hw0]
    exact ⟨⟨fun h => h.1, fun h => ⟨h, fun h => by cases h⟩⟩, fun h => ⟨hw0, h.2 rfl, h.1⟩, fun h => ⟨h.2.2, fun _ => h.2.1⟩⟩

/-- **C165.** Without a limit on the number of vertices, there's always a result. -/
theorem C165_returns (hw : g.WF) (h : SplitBy u q (cutOnly f) scalars 0 g addr hn 0 0 0 r) : ∃ R, r = .ok R := by
  rcases C165_copies hw h with ⟨R, hr, -⟩ | ⟨-, h0⟩
  · exact ⟨R, hr⟩
  · exact absurd rfl h0

/-- **C165.** If vertices have a destructor, then `ana` and `cata` have to be given, and if labels have one, then so do the operators for labels.  Otherwise
it's an error, and nothing is split. -/
theorem C165_undefined {a b d c e : Nat} {x : Infer.Splitter} (hx : x.prop = nothing) :
    (x.ana = none → (SplitBy u q x ⟨⟨some (.user a), some (.user b)⟩, ⟨none, none⟩, some (.user d), none⟩ limit g addr hn 0 0 0 r ↔ r = .error UNDANA)) ∧
    (x.ana = some (.user c) → x.cata = none →
      (SplitBy u q x ⟨⟨some (.user a), some (.user b)⟩, ⟨none, none⟩, some (.user d), none⟩ limit g addr hn 0 0 0 r ↔ r = .error UNDCAT)) ∧
    (x.ana = some (.user c) → x.cata = some (.user e) → x.inAna.top = none →
      (SplitBy u q x ⟨⟨none, none⟩, ⟨some (.user a), some (.user b)⟩, none, some (.user d)⟩ limit g addr hn 0 0 0 r ↔ r = .error UNDCTO)) := by
  obtain ⟨ana, cata, fis, prop, ⟨t, o⟩, ic, oa, oc⟩ := x
  cases hx
  refine ⟨fun h => ?_, fun h h' => ?_, fun h h' h'' => ?_⟩
  · cases h; rfl
  · cases h; cases h'; rfl
  · cases h; cases h'; cases h''; rfl

/-- A splitter with all functions given by the user. -/
def allGiven (ana cata fis map ia ia' ic ic' oa oa' oc oc' : Nat) : Infer.Splitter :=
  ⟨some (.user ana), some (.user cata), some (.user fis), ⟨{ noFold with map := some (.user map) }, noFold, noFold⟩,
    ⟨some (.user ia), some (.user ia')⟩, ⟨some (.user ic), some (.user ic')⟩, ⟨some (.user oa), some (.user oa')⟩,
    ⟨some (.user oc), some (.user oc')⟩⟩

/-- **C165.** Functions that are given are used as they are: the predicate, `ana` and `cata` are applied to a vertex and its property in this order,
and each of the labelers in its own place to the properties of the vertices and the label between them. -/
theorem C165_given {ana cata fis map ia ia' ic ic' oa oa' oc oc' k₁ k₂ k₃ : Nat} :
    SplitBy u q (allGiven ana cata fis map ia ia' ic ic' oa oa' oc oc') scalars limit g addr hn k₁ k₂ k₃ r ↔
      Split.Splits
        { fissile := fun v p => q.bpred fis v p
          ana := fun v p => u.bop ana v p
          cata := fun v p => u.bop cata v p
          outAna := ⟨fun p l t => q.tpred oa p l t, fun p l t => u.top oa' p l t⟩
          outCata := ⟨fun p l t => q.tpred oc p l t, fun p l t => u.top oc' p l t⟩
          inAna := ⟨fun p l t => q.tpred ia p l t, fun p l t => u.top ia' p l t⟩
          inCata := ⟨fun p l t => q.tpred ic p l t, fun p l t => u.top ic' p l t⟩
          probe := fun v _ _ => u.top map 0 v 0 } 0 0 false limit g addr hn k₁ k₂ k₃ r :=
  Iff.rfl

/-- **C165.** So a vertex to be split, as the predicate has it of the vertex and its property, is replaced by what `ana` and `cata` make of both. -/
theorem C165_vertices {ana cata fis map ia ia' ic ic' oa oa' oc oc' : Nat} (hw : g.WF)
    (h : SplitBy u q (allGiven ana cata fis map ia ia' ic ic' oa oa' oc oc') scalars limit g addr hn 0 0 0 (.ok R)) :
    ∀ m, ((m, true) ∈ R.nodes → R.vertex (m, true) = u.bop cata (g.vertex m) (u.top map 0 (g.vertex m) 0)) ∧
      ((m, false) ∈ R.nodes → R.vertex (m, false) =
        if q.bpred fis (g.vertex m) (u.top map 0 (g.vertex m) 0) then u.bop ana (g.vertex m) (u.top map 0 (g.vertex m) 0) else g.vertex m) := by
  rcases Split.C37_split hw (C165_given.1 h) with ⟨R', cp, hr, h1, -⟩ | ⟨hr, -⟩
  · cases hr
    exact fun m => ⟨fun ht => h1.vertex _ ht, fun ht => h1.vertex _ ht⟩
  · cases hr

/-- A predicate that holds of the vertex 2. -/
def demoPreds : Preds := ⟨fun _ v _ => decide (v = 2), fun _ _ _ _ => true⟩

/-- Non-vacuity of C165: two edges labelled 2 lead to the two vertices in place of 2, and both have an edge labelled 8. -/
example (hn : 0 < n) (addr : Split.Twin Nat → Nat) : ∃ R, SplitBy demoEnv demoPreds (cutOnly (some 0)) scalars 0 tangle addr hn 0 0 0 (.ok R) ∧
    (R.out (0, false)).Perm [(5, (1, false)), (2, (2, false)), (2, (2, true)), (4, (3, false))] ∧ (8, (3, false)) ∈ R.out (2, true) ∧
    Ends R [2] (2, true) ∧ (0, true) ∉ R.nodes := by
  obtain ⟨s', hs, -⟩ := cutOnly_full (f := some 0)
  obtain ⟨r, hr⟩ := Split.C37_exists tangle_wf (splitterOf demoEnv demoPreds (full (some 0))) 0 0 s'.vFree.isSome 0 addr hn
  have hr' : SplitBy demoEnv demoPreds (cutOnly (some 0)) scalars 0 tangle addr hn 0 0 0 r := by
    unfold SplitBy
    rw [hs]
    exact hr
  rcases C165_copies tangle_wf hr' with ⟨R, rfl, -, -, h1, h2⟩ | ⟨-, h0⟩
  · refine ⟨R, hr', ?_, ?_, ((C165_words tangle_wf hr' [2] 2).2).2 ⟨by simp, by decide, .cons (b := 2) (by decide) (.nil _)⟩, fun h => ?_⟩
    · exact (h2 _ ((h1 0 false).2 ⟨by decide, fun h => by cases h⟩)).2.trans (.of_eq (by decide))
    · exact ((h2 _ ((h1 2 true).2 ⟨by decide, fun _ => ⟨by decide, 0, by decide, 2, by decide⟩⟩)).2.mem_iff).2 (by decide)
    · exact absurd (((h1 0 true).1 h).2 rfl).1 (by decide)
  · exact absurd rfl h0

/-- Non-vacuity of C165 with all functions given. -/
example (hn : 0 < n) (addr : Split.Twin Nat → Nat) : ∃ r, SplitBy demoEnv demoPreds (allGiven 0 1 0 0 0 0 1 1 2 2 3 3) scalars 0 tangle addr hn 0 0 0 r := by
  obtain ⟨r, hr⟩ := Split.C37_exists tangle_wf (splitterOf demoEnv demoPreds (allGiven 0 1 0 0 0 0 1 1 2 2 3 3)) 0 0 false 0 addr hn
  exact ⟨r, C165_given.2 hr⟩

end Cru.Repl
