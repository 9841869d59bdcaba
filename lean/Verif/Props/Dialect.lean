import Verif.Spec.Words
import Verif.Props.MergeBy
import Verif.Props.Filter

/-! # C163: the words of merged and filtered graphs -/

namespace Cru.Merge

open Net Duplex Partition

variable {n : Nat} {N V L X : Type} [DecidableEq N] [DecidableEq X] {g R : Gr N V L} {rel : N → N → Prop} {o : EdgeOps N L} {vop : Option (List N → V)}
  {cls : N → N}

theorem survivors_all {eq : L → L → Bool} (ms : List (List (L × N))) : survivors eq none ms = ms.flatten := by
  exact List.filter_eq_self.2 fun _ _ => rfl

/-- An edge of a member is an edge of the class. -/
theorem IsQuotient.edge (hq : IsQuotient g R rel o vop cls) (hp : o.pruner = none) (hr : o.red = none) {a : N} (ha : a ∈ g.nodes) {e : L × N}
    (he : e ∈ g.out a) : ∃ l, (l, cls e.2) ∈ R.out (cls a) ∧ o.eq l e.1 = true := by
  obtain ⟨k, hk, -, -, hf⟩ := hq.content _ (hq.all hp a ha)
  obtain ⟨d, hd⟩ := hf.dedup hr
  rw [hp, survivors_all] at hd
  have hak : a ∈ k := hk.mem_iff.2 (List.mem_filter.2 ⟨ha, by simp⟩)
  obtain ⟨⟨l, t⟩, h1, h2, h3⟩ := hd.covers (e.1, cls e.2) (List.mem_map.2 ⟨e, List.mem_flatten.2 ⟨_, List.mem_map.2 ⟨a, hak, rfl⟩, he⟩, rfl⟩)
  cases h2
  exact ⟨l, h1, h3⟩

/-- An edge of a class is an edge of some member. -/
theorem IsQuotient.origin (hq : IsQuotient g R rel o vop cls) (hp : o.pruner = none) (hr : o.red = none) {m : N} (hm : m ∈ R.nodes) {d : L × N}
    (hd : d ∈ R.out m) : ∃ b ∈ g.nodes, cls b = m ∧ ∃ e ∈ g.out b, e.1 = d.1 ∧ cls e.2 = d.2 := by
  obtain ⟨k, hk, -, -, hf⟩ := hq.content _ hm
  obtain ⟨dr, ht⟩ := hf.dedup hr
  rw [hp, survivors_all] at ht
  obtain ⟨e, he, rfl⟩ := List.mem_map.1 (ht.perm.mem_iff.1 (List.mem_append_left _ hd))
  obtain ⟨l, hl, hel⟩ := List.mem_flatten.1 he
  obtain ⟨b, hb, rfl⟩ := List.mem_map.1 hl
  obtain ⟨h1, h2⟩ := List.mem_filter.1 (hk.mem_iff.1 hb)
  exact ⟨b, h1, by simpa using h2, e, hel, rfl, rfl⟩

theorem next_mem (hw : g.WF) {a : N} (ha : a ∈ g.nodes) {e : L × N} (he : e ∈ g.out a) : e.2 ∈ g.nodes :=
  (hw.reach _).2 (((hw.reach a).1 ha).tail (List.mem_map.2 ⟨e, he, rfl⟩))

theorem IsQuotient.spells (hw : g.WF) (hl : IsEquality o.eq) (hq : IsQuotient g R rel o vop cls) (hp : o.pruner = none) (hr : o.red = none) {a b : N} {w : List L}
    (hs : Spells g.out a w b) (ha : a ∈ g.nodes) : ∃ w', Alike o.eq w w' ∧ Spells R.out (cls a) w' (cls b) := by
  induction hs with
  | nil => exact ⟨[], .nil, .nil _⟩
  | cons he _ ih =>
    obtain ⟨l, h1, h2⟩ := hq.edge hp hr ha he
    obtain ⟨w', h3, h4⟩ := ih (next_mem hw ha he)
    exact ⟨l :: w', .cons (hl.symm _ _ h2) h3, .cons h1 h4⟩

theorem IsQuotient.related (hq : IsQuotient g R rel o vop cls) (hsy : ∀ a b, rel a b → rel b a) (htr : ∀ a b c, rel a b → rel b c → rel a c)
    {a b : N} (ha : a ∈ g.nodes) (hb : b ∈ g.nodes) : cls a = cls b ↔ rel a b :=
  ⟨fun h => htr _ _ _ (hq.member a ha).2 (hsy _ _ (h ▸ (hq.member b hb).2)), hq.same a ha b hb⟩

theorem IsQuotient.unspells (hw : g.WF) (hq : IsQuotient g R rel o vop cls) (hp : o.pruner = none) (hr : o.red = none)
    (hsy : ∀ a b, rel a b → rel b a) (htr : ∀ a b c, rel a b → rel b c → rel a c) (hst : Stable g o.eq rel) {m m' : N} {w : List L}
    (hs : Spells R.out m w m') : ∀ a ∈ g.nodes, cls a = m → m ∈ R.nodes → ∃ w' b, Alike o.eq w w' ∧ Spells g.out a w' b ∧ b ∈ g.nodes ∧ cls b = m' := by
  induction hs with
  | nil => exact fun a ha h _ => ⟨[], a, .nil, .nil _, ha, h⟩
  | @cons m t c l w he _ ih =>
    intro a ha hc hm
    obtain ⟨b, hb, hbm, e, heb, h1, h2⟩ := hq.origin hp hr hm he
    dsimp only at h1 h2
    obtain ⟨d, hd, h3, h4⟩ := hst b hb a ha ((hq.related hsy htr hb ha).1 (hbm.trans hc.symm)) e heb
    have hen := next_mem hw hb heb
    have hdn := next_mem hw ha hd
    obtain ⟨w', x, h5, h6, h7, h8⟩ := ih d.2 hdn ((hq.same _ hdn _ hen (hsy _ _ h4)).trans h2) (h2 ▸ hq.all hp _ hen)
    exact ⟨d.1 :: w', x, .cons (h1 ▸ h3) h5, .cons hd h6, h7, h8⟩

section Whole

variable {c : Rule V L X} {P : V → List (L × V) → List (L × V) → Option X} {same : Option X → Option X → Bool} {addr : N → Nat}

/-- **C163.** If `cru_merged` is used without an edge operation or a pruner, then for any path from the base of the given graph, there's one in the result with
equal labels to the vertex that stands for the class of the last vertex.  Two vertices have the same one standing for them if and only if their properties are
equal. -/
theorem C163_preserved (hw : g.WF) (h0 : (∀ m ∈ g.nodes, g.inn m = []) ∨ Exact g g.inn) (hc : c.Sound P same) (hl : IsEquality o.eq)
    (hlh : HashRespects o.hash o.eq) (ha : Function.Injective addr) {hn : 0 < n} (h : MergedBy c o vop g addr hn R) (hp : o.pruner = none) (hr : o.red = none) :
    ∃ cls : N → N, (∀ a ∈ g.nodes, ∀ b ∈ g.nodes, cls a = cls b ↔ same (value c P g a) (value c P g b) = true) ∧
      ∀ w a, Cru.Ends g w a → ∃ w', Alike o.eq w w' ∧ Cru.Ends R w' (cls a) := by
  obtain ⟨⟨cls, hq⟩, -⟩ := C157_quotient hw h0 hc hl hlh ha h
  refine ⟨cls, fun a ha b hb => hq.related (fun _ _ h => hc.equality.symm _ _ h) (fun _ _ _ h h' => hc.equality.trans _ _ _ h h') ha hb, fun w a hs => ?_⟩
  obtain ⟨w', h1, h2⟩ := hq.spells hw hl hp hr hs ((hw.reach _).2 .refl)
  exact ⟨w', h1, by rw [Cru.Ends, hq.base]; exact h2⟩

/-- **C163.** If furthermore vertices with equal properties have equally labelled edges to vertices with equal properties, then the two graphs have the same
words, up to the equality of labels, ending at the same classes. -/
theorem C163_exact (hw : g.WF) (h0 : (∀ m ∈ g.nodes, g.inn m = []) ∨ Exact g g.inn) (hc : c.Sound P same) (hl : IsEquality o.eq)
    (hlh : HashRespects o.hash o.eq) (ha : Function.Injective addr) {hn : 0 < n} (h : MergedBy c o vop g addr hn R) (hp : o.pruner = none) (hr : o.red = none)
    (hst : Stable g o.eq fun a b => same (value c P g a) (value c P g b) = true) :
    ∃ cls : N → N, (∀ a ∈ g.nodes, ∀ b ∈ g.nodes, cls a = cls b ↔ same (value c P g a) (value c P g b) = true) ∧
      ∀ w m, (∃ w', Alike o.eq w w' ∧ Cru.Ends R w' m) ↔ ∃ w' a, Alike o.eq w w' ∧ Cru.Ends g w' a ∧ cls a = m := by
  obtain ⟨⟨cls, hq⟩, -⟩ := C157_quotient hw h0 hc hl hlh ha h
  have hb : g.base ∈ g.nodes := (hw.reach _).2 .refl
  have htr : ∀ {w w' w'' : List L}, Alike o.eq w w' → Alike o.eq w' w'' → Alike o.eq w w'' := by
    intro w w' w'' h1 h2
    unfold Alike at *
    induction h1 generalizing w'' with
    | nil => cases h2; exact .nil
    | cons ha _ ih => cases h2 with | cons hb hb' => exact .cons (hl.trans _ _ _ ha hb) (ih hb')
  refine ⟨cls, fun a ha b hb => hq.related (fun _ _ h => hc.equality.symm _ _ h) (fun _ _ _ h h' => hc.equality.trans _ _ _ h h') ha hb, fun w m => ⟨?_, ?_⟩⟩
  · rintro ⟨w', h1, h2⟩
    rw [Cru.Ends, hq.base] at h2
    obtain ⟨w'', b, h3, h4, -, h5⟩ := hq.unspells hw hp hr (fun _ _ h => hc.equality.symm _ _ h) (fun _ _ _ h h' => hc.equality.trans _ _ _ h h') hst h2 _ hb rfl
      (hq.all hp _ hb)
    exact ⟨w'', b, htr h1 h3, h4, h5⟩
  · rintro ⟨w', a, h1, h2, rfl⟩
    obtain ⟨w'', h3, h4⟩ := hq.spells hw hl hp hr h2 hb
    exact ⟨w'', htr h1 h3, by rw [Cru.Ends, hq.base]; exact h4⟩

end Whole

/-- An edge that leads to a cycle of two. -/
def lasso : Gr Nat Nat Unit where
  nodes := List.range 3
  base := 0
  vertex := id
  out m := match m with
    | 0 => [((), 1)]
    | 1 => [((), 2)]
    | 2 => [((), 1)]
    | _ => []
  inn _ := []

theorem lasso_wf : lasso.WF := wf_range (k := 3) rfl rfl (by decide) (by decide) (by decide)

/-- Non-vacuity: on any number of lanes, merging the vertices that have incoming edges makes one vertex of the cycle, with an edge to itself, and words of any
length remain. -/
example (hn : 0 < n) : ∃ R, MergedBy entered plain (some List.sum) lasso id hn R ∧ (∃ m, ∀ k, Cru.Ends R (List.replicate (k + 1) ()) m) ∧
    Stable lasso plain.eq fun a b => (value entered (fun _ i _ => if i = [] then none else some ()) lasso a ==
      value entered (fun _ i _ => if i = [] then none else some ()) lasso b) = true := by
  have hl : IsEquality plain.eq := ⟨fun _ => rfl, fun _ _ _ => rfl, fun _ _ _ _ _ => rfl⟩
  have hlh : HashRespects plain.hash plain.eq := fun _ _ _ => rfl
  have hst : Stable lasso plain.eq fun a b => (value entered (fun _ i _ => if i = [] then none else some ()) lasso a ==
      value entered (fun _ i _ => if i = [] then none else some ()) lasso b) = true := by unfold Stable; decide
  obtain ⟨R, hR⟩ := C157_ends (addr := id) lasso_wf entered_sound hl hlh (fun _ _ h => h) hn List.sum
  obtain ⟨cls, h1, h2⟩ := C163_exact lasso_wf (.inl fun _ _ => rfl) entered_sound hl hlh (fun _ _ h => h) hR rfl rfl hst
  have h12 := (h1 1 (by decide) 2 (by decide)).2 (by decide)
  refine ⟨R, hR, ⟨cls 1, fun k => ?_⟩, hst⟩
  have hs : ∀ k, Spells lasso.out 1 (List.replicate k ()) 1 ∨ Spells lasso.out 1 (List.replicate k ()) 2 := by
    have : ∀ k, (Spells lasso.out 1 (List.replicate k ()) 1 ∨ Spells lasso.out 1 (List.replicate k ()) 2) ∧
        (Spells lasso.out 2 (List.replicate k ()) 1 ∨ Spells lasso.out 2 (List.replicate k ()) 2) := by
      intro k
      induction k with
      | zero => exact ⟨.inl (.nil _), .inr (.nil _)⟩
      | succ k ih =>
        exact ⟨ih.2.imp (fun h => .cons (by decide) h) fun h => .cons (by decide) h, ih.1.imp (fun h => .cons (by decide) h) fun h => .cons (by decide) h⟩
    exact fun k => (this k).1
  have hu : ∀ w w' : List Unit, Alike plain.eq w w' → w' = w := by
    intro w w' h
    unfold Alike at h
    induction h with
    | nil => rfl
    | cons _ _ ih => rw [ih]
  have hrefl : Alike plain.eq (List.replicate (k + 1) ()) (List.replicate (k + 1) ()) := List.forall₂_same.2 fun _ _ => rfl
  obtain ⟨w', h3, h4⟩ := (h2 (List.replicate (k + 1) ()) (cls 1)).2 (by
    rcases hs k with h | h
    · exact ⟨_, 1, hrefl, .cons (by decide) h, rfl⟩
    · exact ⟨_, 2, hrefl, .cons (by decide) h, h12.symm⟩)
  rwa [hu _ _ h3] at h4

end Cru.Merge

namespace Cru.Filter

open Net

variable {n : Nat} {N V L : Type} [DecidableEq N] [DecidableEq L] {u : Filter V L} {g R : Gr N V L} {initial : N} {addr : N → Nat} {hn : 0 < n}

/-- **C163.** The words of a graph filtered without a thinner, and the vertices at which they end, are those of the paths from the base by way of edges that pass
to vertices that pass. -/
theorem C163_filtered (hw : g.WF) (hl : u.Lawful) (ht : u.thinner = none) (h : Filters u g false initial addr hn 0 0 0 (.ok (some R))) (w : List L) (m : N) :
    Cru.Ends R w m ↔ Spells (kept u g) g.base w m := by
  have hf := (C29_filtered hw hl ht h).2
  have hcl : ∀ a ∈ R.nodes, ∀ e ∈ R.out a, e.2 ∈ R.nodes := fun a ha e he =>
    (hf.nodes.mem _).2 (((hf.nodes.mem a).1 ha).tail (List.mem_map.2 ⟨e, he, rfl⟩))
  have hb : g.base ∈ R.nodes := (hf.nodes.mem _).2 .refl
  rw [Cru.Ends, hf.base]
  generalize g.base = a at hb
  constructor
  · intro hs
    induction hs with
    | nil => exact .nil _
    | cons he _ ih => exact .cons ((hf.out _ hb).mem_iff.1 he) (ih (hcl _ hb _ he))
  · intro hs
    induction hs with
    | nil => exact .nil _
    | cons he _ ih =>
      have he' := (hf.out _ hb).mem_iff.2 he
      exact .cons he' (ih (hcl _ hb _ he'))

/-- **C163.** With just a test of labels, they're the ones all of whose labels pass. -/
theorem C163_labels (hw : g.WF) (hl : u.Lawful) (ht : u.thinner = none) (hp : u.probe = none) (ho : u.order = none) {t : EdgeTest V L} (hu : u.edge = some t)
    (hv : t.vacuous = false) {ok : L → Bool} (hok : ∀ v e, t.map v e = ok e.1) (h : Filters u g false initial addr hn 0 0 0 (.ok (some R))) (w : List L) (m : N) :
    Cru.Ends R w m ↔ Cru.Ends g w m ∧ ∀ l ∈ w, ok l = true := by
  have hk : ∀ a e, e ∈ kept u g a ↔ e ∈ g.out a ∧ ok e.1 = true := fun a e => by
    simp [kept, passes, fails, hp, ho, hu, hv, hok]
  rw [C163_filtered hw hl ht h, Cru.Ends]
  generalize g.base = a
  constructor
  · intro hs
    induction hs with
    | nil => exact ⟨.nil _, by simp⟩
    | cons he _ ih =>
      obtain ⟨h1, h2⟩ := (hk _ _).1 he
      exact ⟨.cons h1 ih.1, by simpa [h2] using ih.2⟩
  · rintro ⟨hs, hall⟩
    induction hs with
    | nil => exact .nil _
    | cons he _ ih => exact .cons ((hk _ _).2 ⟨he, hall _ (by simp)⟩) (ih fun l hl => hall l (by simp [hl]))

/-- A filter with just a test of labels. -/
def strainer : Filter Nat Bool := ⟨none, some marked, none, none, fun _ _ => 0⟩

theorem strainer_lawful : strainer.Lawful :=
  ⟨fun _ h => (by cases h), fun t h v es es' hp => by cases h; exact any_perm hp, fun _ h => (by cases h), fun _ _ h => (by cases h)⟩

/-- Non-vacuity: on any number of lanes, a word of true labels stays and one with a false label is lost. -/
example (hn : 0 < n) (addr : Nat → Nat) : ∃ R, Filters strainer net false 0 addr hn 0 0 0 (.ok (some R)) ∧ Cru.Ends R [true, true] 4 ∧ Cru.Ends net [false, true] 4 ∧
    ¬ Cru.Ends R [false, true] 4 := by
  obtain ⟨r, hr⟩ := C29_exists net_wf strainer_lawful addr hn 0
  have h := C29_correct net_wf strainer_lawful rfl (fun m _ e => by rintro ⟨-, p, hp, -⟩; cases hp) (fun m _ e => by rintro ⟨h, -, h'⟩; exact h h'.symm) hr
  rw [if_neg (by decide)] at h
  obtain ⟨R, rfl, -⟩ := h
  have hw := C163_labels net_wf strainer_lawful rfl rfl rfl rfl rfl (ok := id) (fun _ _ => rfl) hr
  have s1 : Cru.Ends net [true, true] 4 := .cons (b := 1) (by decide) (.cons (b := 4) (by decide) (.nil _))
  have s2 : Cru.Ends net [false, true] 4 := .cons (b := 3) (by decide) (.cons (b := 4) (by decide) (.nil _))
  exact ⟨R, hr, (hw _ _).2 ⟨s1, by decide⟩, s2, fun h => absurd ((hw _ _).1 h).2 (by decide)⟩

end Cru.Filter
