import Verif.Model.Closure
import Verif.Props.Compose
import Verif.Props.Infer

/-! # C158: transitive closures -/

namespace Cru.Compose

open Net

variable {n : Nat} {N V L P : Type} [DecidableEq N] [DecidableEq L] {g R : Gr N V L} {u : Env P L} {c : Infer.Composer}
  {mapped : Gr N V L → N → P × P} {addr : N → Nat} {hn : 0 < n}

omit [DecidableEq N] in
theorem same_scalar {a b : L × N} : Same scalarEqual a b ↔ a = b := by
  simp only [Same, scalarEqual, decide_eq_true_eq, Prod.ext_iff]; exact and_comm

theorem scalar_equality : IsEquality (scalarEqual (L := L)) := Merge.decide_equality

/-- Nothing is left of the functions that were left out. -/
structure Default (u : Env P L) (c : Infer.Composer) : Prop where
  qpred : u.callQpred c.qpred = fun _ _ _ _ => true
  qop : u.callQop c.qop = fun _ x _ _ => x

omit [DecidableEq L] in
theorem default_of {c₀ : Infer.Composer} {s : Infer.Sig} (hi : Infer.inferredComposer c₀ s = .ok c) (h1 : c₀.qpred = none) (h2 : c₀.qop = none)
    (h3 : s.eFree = none) (u : Env P L) : Default u c := by
  unfold Infer.inferredComposer at hi
  rcases hf : Infer.fullOrder s.eOrder with e | w
  · rw [hf] at hi; cases hi
  rcases ha : Infer.filledMapProp c₀.adjacent with e | a
  · rw [hf, ha, h1, h2, h3] at hi; cases hi
  rcases hl : Infer.filledMapProp c₀.loc with e | l
  · rw [hf, ha, hl, h1, h2, h3] at hi; cases hi
  rw [hf, ha, hl, h1, h2, h3] at hi
  cases hi
  exact ⟨rfl, rfl⟩

omit [DecidableEq N] [DecidableEq L] in
theorem called_default (hd : Default u c) {p : N → P × P} {out : N → List (L × N)} {m : N} {l : L} {t : N} :
    (l, t) ∈ called (u.composer c false true) p out m ↔ ∃ a k, (l, a) ∈ out m ∧ (k, t) ∈ out a := by
  rw [mem_called]
  simp only [selects, Env.composer, hd.qpred, hd.qop]
  constructor
  · rintro ⟨⟨l', a⟩, h1, ⟨k, b⟩, h2, -, h3⟩
    cases h3
    exact ⟨a, k, h1, h2⟩
  · rintro ⟨a, k, h1, h2⟩
    exact ⟨(l, a), h1, (k, t), h2, trivial, rfl⟩

/-- What a pass does to the edges. -/
theorem pass_mem (hd : Default u c) (hw : g.WF) (ha : Function.Injective addr) {ch : Bool}
    (h : Pass (u.composer c false true) mapped scalarEqual addr hn (fun _ => none) g R ch) {m : N} (hm : m ∈ g.nodes) {l : L} {t : N} :
    (l, t) ∈ R.out m ↔ (l, t) ∈ g.out m ∨ ∃ a k, (l, a) ∈ g.out m ∧ (k, t) ∈ g.out a := by
  obtain ⟨d, ht⟩ := (C34_extends hw scalar_equality ha rfl h).out m hm
  rw [← called_default hd (p := mapped g), ← List.mem_append]
  constructor
  · exact fun h => ht.perm.mem_iff.1 (List.mem_append_left _ h)
  · intro h
    obtain ⟨o, ho, hs⟩ := ht.covers _ h
    rw [same_scalar] at hs
    exact hs ▸ ho

theorem pass_nodup (hw : g.WF) (ha : Function.Injective addr) {ch : Bool}
    (h : Pass (u.composer c false true) mapped scalarEqual addr hn (fun _ => none) g R ch) {m : N} (hm : m ∈ g.nodes) : (R.out m).Nodup := by
  obtain ⟨d, ht⟩ := (C34_extends hw scalar_equality ha rfl h).out m hm
  exact ht.distinct.imp fun h he => h (same_scalar.2 he)

/-- The number of edges changes if and only if there's an edge to be added. -/
theorem pass_length (hw : g.WF) (ha : Function.Injective addr) {ch : Bool}
    (h : Pass (u.composer c false true) mapped scalarEqual addr hn (fun _ => none) g R ch) :
    ch = true ↔ ∃ m ∈ g.nodes, (g.out m).length ≠ (R.out m).length := by
  rw [pass_changed hw h]
  refine exists_congr fun m => and_congr_right fun hm => ?_
  rw [pass_out hw h hm, marks_none rfl]
  simp

theorem pass_sub (hd : Default u c) (hw : g.WF) (ha : Function.Injective addr) {ch : Bool}
    (h : Pass (u.composer c false true) mapped scalarEqual addr hn (fun _ => none) g R ch) (hu : ∀ m ∈ g.nodes, (g.out m).Nodup) {m : N}
    (hm : m ∈ g.nodes) : (g.out m).Subperm (R.out m) :=
  (hu m hm).subperm fun e he => (pass_mem hd hw ha h hm).2 (.inl he)

theorem edge_mem (hw : g.WF) {m : N} (hm : m ∈ g.nodes) {e : L × N} (he : e ∈ g.out m) : e.2 ∈ g.nodes := next_mem hw hm he

theorem reaches_mem (hw : g.WF) {a t : N} (ha : a ∈ g.nodes) (h : Reaches (fun m => (g.out m).map (·.2)) a t) : t ∈ g.nodes := by
  induction h with
  | refl => exact ha
  | tail _ h ih =>
    obtain ⟨e, he, rfl⟩ := List.mem_map.1 h
    exact edge_mem hw ih he

/-- **C158.** If a composer with neither a predicate nor a labeler is given, and the labels are scalars, then iterated, non-destructive composition of a
graph without duplicate edges that isn't killed yields a graph with the same vertices, in which a vertex has an edge with a certain label to another one if
and only if there's a path to it in the given graph starting with an edge with this label, and no edge is there twice. -/
theorem C158_closure {c₀ : Infer.Composer} {s : Infer.Sig} (hi : Infer.inferredComposer c₀ s = .ok c) (h1 : c₀.qpred = none) (h2 : c₀.qop = none)
    (h3 : s.eFree = none) (hw : g.WF) (ha : Function.Injective addr) (hu : ∀ m ∈ g.nodes, (g.out m).Nodup)
    (h : Composes (u.composer c false true) mapped scalarEqual addr hn g R) :
    R.base = g.base ∧ R.vertex = g.vertex ∧ R.nodes.Perm g.nodes ∧ R.WF ∧ ∀ m ∈ g.nodes, (R.out m).Nodup ∧
      ∀ l t, (l, t) ∈ R.out m ↔ ∃ a, (l, a) ∈ g.out m ∧ Reaches (fun m => (g.out m).map (·.2)) a t := by
  have hd := default_of hi h1 h2 h3 u
  clear hi h1 h2 h3
  induction h with
  | @last g R ch hp hch =>
    have hch : ch = false := by simpa [Env.composer] using hch
    subst hch
    have hx := C34_extends hw scalar_equality ha rfl hp
    refine ⟨hx.base, hx.vertex, hx.nodes, hx.wf, fun m hm => ⟨pass_nodup hw ha hp hm, fun l t => ?_⟩⟩
    have hlen : ∀ m ∈ g.nodes, (g.out m).length = (R.out m).length := by
      intro m hm
      by_contra hc
      cases (pass_length hw ha hp).2 ⟨m, hm, hc⟩
    have hperm : ∀ m ∈ g.nodes, (g.out m).Perm (R.out m) := fun m hm =>
      (pass_sub hd hw ha hp hu hm).perm_of_length_le (hlen m hm).ge
    rw [← (hperm m hm).mem_iff]
    refine ⟨fun h => ⟨t, h, .refl⟩, ?_⟩
    rintro ⟨a, h1, h2⟩
    induction h2 with
    | refl => exact h1
    | tail _ h ih =>
      obtain ⟨⟨k, b⟩, hk, rfl⟩ := List.mem_map.1 h
      exact ((hperm m hm).mem_iff).2 ((pass_mem hd hw ha hp hm).2 (.inr ⟨_, k, ih, hk⟩))
  | @more g g' R hp _ _ ih =>
    have hx := C34_extends hw scalar_equality ha rfl hp
    obtain ⟨h1, h2, h3, h4, h5⟩ := ih hx.wf (fun m hm => pass_nodup hw ha hp (hx.nodes.mem_iff.1 hm))
    refine ⟨h1.trans hx.base, h2.trans hx.vertex, h3.trans hx.nodes, h4, fun m hm => ?_⟩
    obtain ⟨h6, h7⟩ := h5 m (hx.nodes.mem_iff.2 hm)
    refine ⟨h6, fun l t => (h7 l t).trans ?_⟩
    have up : ∀ {a t}, a ∈ g.nodes → Reaches (fun m => (g.out m).map (·.2)) a t → Reaches (fun m => (g'.out m).map (·.2)) a t := by
      intro a t ha' h
      induction h with
      | refl => exact .refl
      | tail hs h ih =>
        obtain ⟨⟨k, b⟩, hk, rfl⟩ := List.mem_map.1 h
        exact ih.tail (List.mem_map.2 ⟨(k, b), (pass_mem hd hw ha hp (reaches_mem hw ha' hs)).2 (.inl hk), rfl⟩)
    have down : ∀ {a t}, a ∈ g.nodes → Reaches (fun m => (g'.out m).map (·.2)) a t → Reaches (fun m => (g.out m).map (·.2)) a t := by
      intro a t ha' h
      induction h with
      | refl => exact .refl
      | @tail b t hs h ih =>
        obtain ⟨⟨k, b⟩, hk, rfl⟩ := List.mem_map.1 h
        rcases (pass_mem hd hw ha hp (reaches_mem hw ha' ih)).1 hk with h | ⟨e, j, h, h'⟩
        · exact ih.tail (List.mem_map.2 ⟨_, h, rfl⟩)
        · exact (ih.tail (List.mem_map.2 ⟨_, h, rfl⟩)).tail (List.mem_map.2 ⟨_, h', rfl⟩)
    constructor
    · rintro ⟨a, h8, h9⟩
      rcases (pass_mem hd hw ha hp hm).1 h8 with h | ⟨e, j, h, h'⟩
      · exact ⟨a, h, down (edge_mem hw hm h) h9⟩
      · have hem := edge_mem hw hm h
        exact ⟨e, h, (Relation.ReflTransGen.single (List.mem_map.2 ⟨_, h', rfl⟩)).trans (down (edge_mem hw hem h') h9)⟩
    · rintro ⟨a, h8, h9⟩
      exact ⟨a, (pass_mem hd hw ha hp hm).2 (.inl h8), up (edge_mem hw hm h8) h9⟩

/-- **C158.** In particular, a vertex has an edge to another one if and only if there's a path of at least one edge. -/
theorem C158_transitive {c₀ : Infer.Composer} {s : Infer.Sig} (hi : Infer.inferredComposer c₀ s = .ok c) (h1 : c₀.qpred = none) (h2 : c₀.qop = none)
    (h3 : s.eFree = none) (hw : g.WF) (ha : Function.Injective addr) (hu : ∀ m ∈ g.nodes, (g.out m).Nodup)
    (h : Composes (u.composer c false true) mapped scalarEqual addr hn g R) {m t : N} (hm : m ∈ g.nodes) :
    (∃ l, (l, t) ∈ R.out m) ↔ Relation.TransGen (fun a b => ∃ l, (l, b) ∈ g.out a) m t := by
  obtain ⟨-, -, -, -, h4⟩ := C158_closure hi h1 h2 h3 hw ha hu h
  simp only [(h4 m hm).2]
  have key : ∀ a, Reaches (fun m => (g.out m).map (·.2)) a t ↔ Relation.ReflTransGen (fun a b => ∃ l, (l, b) ∈ g.out a) a t := fun a => by
    have : (fun x y => y ∈ (g.out x).map (·.2)) = fun a b => ∃ l, (l, b) ∈ g.out a := by
      funext x y
      simp
    rw [Reaches, this]
  rw [Relation.TransGen.head'_iff]
  constructor
  · rintro ⟨l, a, h5, h6⟩
    exact ⟨a, ⟨l, h5⟩, (key a).1 h6⟩
  · rintro ⟨a, ⟨l, h5⟩, h6⟩
    exact ⟨l, a, h5, (key a).2 h6⟩

/-- The pairs of labels and vertices that edges of `m` may have. -/
def room (g : Gr N V L) (m : N) : List (L × N) := (g.out m).flatMap fun e => g.nodes.map fun t => (e.1, t)

/-- What doesn't change by passes on `g`. -/
structure Grown (g G : Gr N V L) : Prop where
  wf : G.WF
  nodes : G.nodes.Perm g.nodes
  once : ∀ m ∈ g.nodes, (G.out m).Nodup
  within : ∀ m ∈ g.nodes, ∀ e ∈ G.out m, e ∈ room g m

/-- The room left. -/
def space (g G : Gr N V L) : Nat := (g.nodes.map fun m => (room g m).length - (G.out m).length).sum

theorem Grown.next (hd : Default u c) (ha : Function.Injective addr) {G : Gr N V L} (hG : Grown g G) {ch : Bool}
    (h : Pass (u.composer c false true) mapped scalarEqual addr hn (fun _ => none) G R ch) :
    Grown g R ∧ (ch = true → space g R < space g G) := by
  have hx := C34_extends hG.wf scalar_equality ha rfl h
  have hwith : ∀ m ∈ g.nodes, ∀ e ∈ R.out m, e ∈ room g m := by
    rintro m hm ⟨l, t⟩ he
    rcases (pass_mem hd hG.wf ha h (hG.nodes.mem_iff.2 hm)).1 he with h1 | ⟨a, k, h1, h2⟩
    · exact hG.within m hm _ h1
    · obtain ⟨e, h3, h4⟩ := List.mem_flatMap.1 (hG.within m hm _ h1)
      obtain ⟨b, -, h5⟩ := List.mem_map.1 h4
      cases h5
      have hma := edge_mem hG.wf (hG.nodes.mem_iff.2 hm) h1
      exact List.mem_flatMap.2 ⟨e, h3, List.mem_map.2 ⟨t, hG.nodes.mem_iff.1 (edge_mem hG.wf hma h2), rfl⟩⟩
  have hR : Grown g R := ⟨hx.wf, hx.nodes.trans hG.nodes, fun m hm => pass_nodup hG.wf ha h (hG.nodes.mem_iff.2 hm), hwith⟩
  refine ⟨hR, fun hc => ?_⟩
  have hle : ∀ m ∈ g.nodes, (G.out m).length ≤ (R.out m).length := fun m hm =>
    (pass_sub hd hG.wf ha h (fun m hm => hG.once m (hG.nodes.mem_iff.1 hm)) (hG.nodes.mem_iff.2 hm)).length_le
  have hcap : ∀ m ∈ g.nodes, (R.out m).length ≤ (room g m).length := fun m hm =>
    ((hR.once m hm).subperm fun e he => hwith m hm e he).length_le
  obtain ⟨m, hm, hne⟩ := (pass_length hG.wf ha h).1 hc
  have hm' := hG.nodes.mem_iff.1 hm
  refine List.sum_lt_sum _ _ (fun m hm => ?_) ⟨m, hm', ?_⟩
  · have := hle m hm; omega
  · have := hle m hm'
    have := hcap m hm'
    omega

/-- **C158.** The passes come to an end, and there's a result. -/
theorem C158_ends {c₀ : Infer.Composer} {s : Infer.Sig} (hi : Infer.inferredComposer c₀ s = .ok c) (h1 : c₀.qpred = none) (h2 : c₀.qop = none)
    (h3 : s.eFree = none) (hw : g.WF) (ha : Function.Injective addr) (hu : ∀ m ∈ g.nodes, (g.out m).Nodup) (hn : 0 < n) :
    (∀ f : Nat → Gr N V L, f 0 = g → ¬ ∀ j, Pass (u.composer c false true) mapped scalarEqual addr hn (fun _ => none) (f j) (f (j + 1)) true) ∧
    ∃ R, Composes (u.composer c false true) mapped scalarEqual addr hn g R := by
  have hd := default_of hi h1 h2 h3 u
  have h0 : Grown g g := ⟨hw, .refl _, hu, fun m hm e he =>
    List.mem_flatMap.2 ⟨e, he, List.mem_map.2 ⟨e.2, edge_mem hw hm he, rfl⟩⟩⟩
  constructor
  · intro f hf0 hf
    have key : ∀ j, Grown g (f j) ∧ space g (f j) + j ≤ space g g := by
      intro j
      induction j with
      | zero => rw [hf0]; exact ⟨h0, by omega⟩
      | succ j ih =>
        obtain ⟨h4, h5⟩ := ih.1.next hd ha (hf j)
        have := h5 rfl
        exact ⟨h4, by omega⟩
    have := (key (space g g + 1)).2
    omega
  · have key : ∀ k G, Grown g G → space g G ≤ k → ∃ R, Composes (u.composer c false true) mapped scalarEqual addr hn G R := by
      intro k
      induction k with
      | zero =>
        intro G hG hk
        obtain ⟨-, -, R, ch, hp⟩ := C34_terminates (mapped := mapped) hG.wf scalar_equality ha (u.composer c false true) hn (fun _ => none)
        cases ch with
        | false => exact ⟨R, .last hp rfl⟩
        | true => have := (hG.next hd ha hp).2 rfl; omega
      | succ k ih =>
        intro G hG hk
        obtain ⟨-, -, R, ch, hp⟩ := C34_terminates (mapped := mapped) hG.wf scalar_equality ha (u.composer c false true) hn (fun _ => none)
        cases ch with
        | false => exact ⟨R, .last hp rfl⟩
        | true =>
          obtain ⟨h4, h5⟩ := hG.next hd ha hp
          have := h5 rfl
          obtain ⟨R', hR'⟩ := ih R h4 (by omega)
          exact ⟨R', .more hp rfl hR'⟩
    exact key _ g h0 le_rfl

/-- A cycle of four vertices, each edge being there twice. -/
def doubledCycle : Gr Nat Nat Nat where
  nodes := [0, 1, 2, 3]
  base := 0
  vertex := id
  out m := if m < 4 then [(7, (m + 1) % 4), (7, (m + 1) % 4)] else []
  inn _ := []

theorem doubledCycle_wf : doubledCycle.WF := wf_range (k := 4) rfl rfl (by omega) (by decide) (by decide)

/-- A specification with nothing in it. -/
def nothing : Infer.Composer := ⟨none, none, ⟨Infer.noFold, Infer.noFold, Infer.noFold⟩, ⟨Infer.noFold, Infer.noFold, Infer.noFold⟩⟩

/-- The user has no functions. -/
def noFunctions : Env Unit Nat := ⟨fun _ _ _ _ _ => false, fun _ _ _ _ _ => 0⟩

/-- **C158, the defect.** If there are duplicate edges, then the number of edges can stay the same while new ones replace them, so that the passes end
too early: whatever is returned for this graph, there's a path of three edges from the first vertex to the last, but no edge. -/
theorem C158_duplicates {c₀ : Infer.Composer} {s : Infer.Sig} (hi : Infer.inferredComposer c₀ s = .ok c) (h1 : c₀.qpred = none) (h2 : c₀.qop = none)
    (h3 : s.eFree = none) {u : Env Unit Nat} {R : Gr Nat Nat Nat}
    (h : Composes (u.composer c false true) (fun _ _ => ((), ())) scalarEqual id hn doubledCycle R) :
    Relation.TransGen (fun a b => ∃ l, (l, b) ∈ doubledCycle.out a) 0 3 ∧ ∀ l, (l, 3) ∉ R.out 0 := by
  have hd := default_of hi h1 h2 h3 u
  have hc : u.composer c false true = ⟨fun _ _ _ _ => true, fun _ x _ _ => x, false, true⟩ := by
    unfold Env.composer; rw [hd.qpred, hd.qop]
  rw [hc] at h
  refine ⟨.tail (b := 2) (.tail (b := 1) (.single ⟨7, by decide⟩) ⟨7, by decide⟩) ⟨7, by decide⟩, ?_⟩
  cases h with
  | last hp _ =>
    have h0 : R.out 0 = [(7, 1), (7, 2)] := by rw [pass_out doubledCycle_wf hp (by decide)]; decide
    rw [h0]; simp
  | more hp _ _ =>
    have := (pass_changed doubledCycle_wf hp).1 rfl
    exact absurd this (by decide)

/-- The functions of a graph of scalars. -/
def scalars : Infer.Sig := ⟨⟨some .scalarHash, some .equalityBpred⟩, ⟨some .scalarHash, some .equalityBpred⟩, none, none⟩

/-- Non-vacuity of `C158_closure` and `C158_ends`: there's a completed specification, and the closure of a path of five vertices on three lanes has edges from the
first vertex to all others, with the label of the first edge. -/
example : ∃ c R, Infer.inferredComposer nothing scalars = .ok c ∧
    Composes (noFunctions.composer c false true) (fun _ _ => ((), ())) scalarEqual id (show 0 < 3 by omega) (path 5) R ∧
    (R.out 0).Perm [(0, 1), (0, 2), (0, 3), (0, 4)] := by
  obtain ⟨c, hc⟩ : ∃ c, Infer.inferredComposer nothing scalars = .ok c := ⟨_, rfl⟩
  have hw : (path 5).WF := path_wf (by omega)
  have hu : ∀ m ∈ (path 5).nodes, ((path 5).out m).Nodup := by decide
  obtain ⟨-, R, hR⟩ := C158_ends (u := noFunctions) (mapped := fun _ _ => ((), ())) hc rfl rfl rfl hw Function.injective_id hu (show 0 < 3 by omega)
  refine ⟨c, R, hc, hR, ?_⟩
  obtain ⟨-, -, -, -, h⟩ := C158_closure hc rfl rfl rfl hw Function.injective_id hu hR
  obtain ⟨h1, h2⟩ := h 0 (by decide)
  refine (List.perm_ext_iff_of_nodup h1 (by decide)).2 fun ⟨l, t⟩ => (h2 l t).trans ?_
  have ho : ∀ m, (path 5).out m = if m + 1 < 5 then [(m, m + 1)] else [] := fun _ => rfl
  have up : ∀ t, Reaches (fun m => ((path 5).out m).map (·.2)) 1 t ↔ 1 ≤ t ∧ t < 5 := by
    intro t
    constructor
    · intro h
      induction h with
      | refl => omega
      | tail _ h ih =>
        simp only [ho] at h
        split_ifs at h
        · simp at h; omega
        · simp at h
    · rintro ⟨h3, h4⟩
      obtain ⟨k, rfl⟩ : ∃ k, t = k + 1 := ⟨t - 1, by omega⟩
      clear h3
      induction k with
      | zero => exact .refl
      | succ k ih =>
        refine (ih (by omega)).tail ?_
        simp only [ho]
        rw [if_pos h4]; simp
  have h0 : (path 5).out 0 = [(0, 1)] := rfl
  rw [h0]
  constructor
  · rintro ⟨a, h3, h4⟩
    simp only [List.mem_singleton, Prod.mk.injEq] at h3
    obtain ⟨rfl, rfl⟩ := h3
    obtain ⟨h5, h6⟩ := (up t).1 h4
    simp; omega
  · intro h3
    simp only [List.mem_cons, Prod.mk.injEq, List.not_mem_nil, or_false] at h3
    refine ⟨1, by simp; omega, (up t).2 (by omega)⟩

end Cru.Compose
