import Verif.Spec.Stretch
import Verif.Proofs.Dedup

/-! # Invariants of stretching -/

namespace Cru.Stretch

open Net Dedup

variable {n : Nat} {N V L : Type}
variable {o : Orders V L} {ask : N → L × N → Answer V L} {g : Gr N V L} {addr : Nd N V L → Nat} {hn : 0 < n}

/-- Nodes are equal. -/
abbrev Eqv (o : Orders V L) (g : Gr N V L) (a b : Nd N V L) : Prop := o.Same (vertex g a) (vertex g b)

theorem Eqv.refl (ho : o.Lawful) (a : Nd N V L) : Eqv o g a a := ho.vertex.refl _
theorem Eqv.symm (ho : o.Lawful) {a b : Nd N V L} (h : Eqv o g a b) : Eqv o g b a := ho.vertex.symm _ _ h
theorem Eqv.trans (ho : o.Lawful) {a b c : Nd N V L} (h : Eqv o g a b) (h' : Eqv o g b c) : Eqv o g a c := ho.vertex.trans _ _ _ h h'

/-- The lane of a node. -/
def ln (o : Orders V L) (g : Gr N V L) (hn : 0 < n) (m : Nd N V L) : Fin n := Build.lane hn (o.hash (vertex g m))

theorem Eqv.ln (ho : o.Lawful) {a b : Nd N V L} (h : Eqv o g a b) : ln o g hn a = Stretch.ln o g hn b := by
  unfold Stretch.ln; rw [show o.hash (vertex g a) = o.hash (vertex g b) from ho.hash _ _ h]

/-- Edges with equal labels. -/
abbrev lq (o : Orders V L) (a b : Edge N V L) : Bool := o.leq a.label b.label

theorem lq_eq (ho : o.Lawful) : IsEquality (lq (N := N) o) :=
  ⟨fun a => ho.label.refl _, fun a b => ho.label.symm _ _, fun a b c => ho.label.trans _ _ _⟩

/-- The edges that a node contributes. -/
def gens (ask : N → L × N → Answer V L) (g : Gr N V L) : Nd N V L → List (Edge N V L)
  | .old m => kept ask g m ++ antes ask g m
  | .new m pos k r t => [postEdge m pos k r t]

/-- A new node is really requested. -/
def Real (ask : N → L × N → Answer V L) (g : Gr N V L) : Nd N V L → Prop
  | .old _ => True
  | .new m pos k r t => ∃ e, (g.out m)[pos]? = some e ∧ e.2 = t ∧ (ask m e).reqs[k]? = some r

/-- The node of the given graph from which a node stems. -/
def Nd.root : Nd N V L → N
  | .old m => m
  | .new m _ _ _ _ => m

/-- The edge leads to a new node. -/
def IsAnte (e : Edge N V L) : Prop := ∃ m pos k r t, e = ⟨.old m, .ante pos k, r.ante, .new m pos k r t⟩

theorem IsAnte.eq {e f : Edge N V L} (he : IsAnte e) (hf : IsAnte f) (h : e.tgt = f.tgt) : e = f := by
  obtain ⟨m, pos, k, r, t, rfl⟩ := he
  obtain ⟨m', pos', k', r', t', rfl⟩ := hf
  simp only [Nd.new.injEq] at h
  obtain ⟨rfl, rfl, rfl, rfl, rfl⟩ := h
  rfl

theorem IsAnte.isNew {e : Edge N V L} (he : IsAnte e) : e.tgt.isNew = true := by
  obtain ⟨m, pos, k, r, t, rfl⟩ := he; rfl

theorem IsAnte.src {e : Edge N V L} (he : IsAnte e) : e.src = .old e.tgt.root := by
  obtain ⟨m, pos, k, r, t, rfl⟩ := he; rfl

theorem IsAnte.src_new {e : Edge N V L} (he : IsAnte e) : e.src.isNew = false := by
  obtain ⟨m, pos, k, r, t, rfl⟩ := he; rfl

theorem mem_kept {m : N} {e : Edge N V L} : e ∈ kept ask g m ↔
    ∃ pos f, (g.out m)[pos]? = some f ∧ (ask m f).delete = false ∧ e = ⟨.old m, .old pos, f.1, .old f.2⟩ := by
  unfold kept oldEdge
  constructor
  · intro h
    obtain ⟨⟨f, pos⟩, hx, rfl⟩ := List.mem_map.1 h
    obtain ⟨h1, h2⟩ := List.mem_filter.1 hx
    exact ⟨pos, f, List.mem_zipIdx_iff_getElem?.1 h1, by simpa using h2, rfl⟩
  · rintro ⟨pos, f, h1, h2, rfl⟩
    exact List.mem_map.2 ⟨(f, pos), List.mem_filter.2 ⟨List.mem_zipIdx_iff_getElem?.2 h1, by simp [h2]⟩, rfl⟩

theorem mem_antes {m : N} {e : Edge N V L} : e ∈ antes ask g m ↔ IsAnte e ∧ e.src = .old m ∧ Real ask g e.tgt := by
  unfold antes anteEdge
  constructor
  · intro h
    obtain ⟨⟨f, pos⟩, hx, h⟩ := List.mem_flatMap.1 h
    obtain ⟨⟨r, k⟩, hr, rfl⟩ := List.mem_map.1 h
    rw [List.mem_reverse, List.mem_zipIdx_iff_getElem?] at hx
    rw [List.mem_zipIdx_iff_getElem?] at hr
    exact ⟨⟨m, pos, k, r, f.2, rfl⟩, rfl, f, hx, rfl, hr⟩
  · rintro ⟨⟨m', pos, k, r, t, rfl⟩, h1, f, h2, rfl, h3⟩
    cases h1
    refine List.mem_flatMap.2 ⟨(f, pos), ?_, List.mem_map.2 ⟨(r, k), List.mem_zipIdx_iff_getElem?.2 h3, rfl⟩⟩
    rw [List.mem_reverse]
    exact List.mem_zipIdx_iff_getElem?.2 h2

theorem gens_src {s : Nd N V L} {e : Edge N V L} (h : e ∈ gens ask g s) : e.src = s := by
  cases s with
  | old m =>
    rcases List.mem_append.1 h with h | h
    · obtain ⟨pos, f, -, -, rfl⟩ := mem_kept.1 h; rfl
    · exact (mem_antes.1 h).2.1
  | new m pos k r t => rw [List.mem_singleton.1 h]; rfl

/-- An edge that's contributed leads to a new node, or to a node of the given graph from the beginning. -/
theorem gens_kind {s : Nd N V L} {e : Edge N V L} (h : e ∈ gens ask g s) : (IsAnte e ∧ Real ask g e.tgt) ∨ (¬ IsAnte e ∧ e.tgt.isNew = false) := by
  cases s with
  | old m =>
    rcases List.mem_append.1 h with h | h
    · obtain ⟨pos, f, -, -, rfl⟩ := mem_kept.1 h
      exact .inr ⟨by rintro ⟨_, _, _, _, _, h⟩; simp at h, rfl⟩
    · exact .inl ⟨(mem_antes.1 h).1, (mem_antes.1 h).2.2⟩
  | new m pos k r t =>
    rw [List.mem_singleton.1 h]
    exact .inr ⟨by rintro ⟨_, _, _, _, _, h⟩; simp [postEdge] at h, rfl⟩

theorem kept_nodup (m : N) : (kept ask g m).Nodup := by
  unfold kept
  refine List.Nodup.map_on ?_ ?_
  · rintro ⟨⟨l, t⟩, p⟩ - ⟨⟨l', t'⟩, p'⟩ - h
    simp only [oldEdge, Edge.mk.injEq, Kind.old.injEq, Nd.old.injEq, true_and] at h
    obtain ⟨rfl, rfl, rfl⟩ := h
    rfl
  · refine List.Nodup.filter _ ?_
    refine List.Nodup.of_map Prod.snd ?_
    rw [List.zipIdx_map_snd]
    exact List.nodup_range'

theorem zipIdx_nodup {α : Type} (l : List α) : l.zipIdx.Nodup := by
  refine List.Nodup.of_map Prod.snd ?_
  rw [List.zipIdx_map_snd]
  exact List.nodup_range'

theorem antes_nodup (m : N) : (antes ask g m).Nodup := by
  unfold antes
  refine List.nodup_flatMap.2 ⟨fun e _ => ?_, ?_⟩
  · refine List.Nodup.map_on ?_ (zipIdx_nodup _)
    rintro ⟨r, k⟩ - ⟨r', k'⟩ - h
    simp only [anteEdge, Edge.mk.injEq, Kind.ante.injEq, Nd.new.injEq, true_and, and_true] at h
    obtain ⟨rfl, -, -, rfl⟩ := h
    rfl
  · rw [List.pairwise_reverse]
    have : (g.out m).zipIdx.Pairwise fun a b => a.2 ≠ b.2 := by
      have := List.nodup_range' (s := 0) (n := (g.out m).length)
      rw [← List.zipIdx_map_snd 0 (g.out m)] at this
      exact List.pairwise_map.1 this
    refine this.imp fun {a b} hab x hx hy => ?_
    obtain ⟨r, -, rfl⟩ := List.mem_map.1 hx
    obtain ⟨r', -, h⟩ := List.mem_map.1 hy
    simp only [anteEdge, Edge.mk.injEq, Kind.ante.injEq, true_and] at h
    exact hab h.1.1

theorem gens_nodup (s : Nd N V L) : (gens ask g s).Nodup := by
  cases s with
  | old m =>
    refine List.nodup_append.2 ⟨kept_nodup m, antes_nodup m, fun a ha b hb => ?_⟩
    rintro rfl
    obtain ⟨pos, f, -, -, rfl⟩ := mem_kept.1 ha
    obtain ⟨_, _, _, _, _, h⟩ := (mem_antes.1 hb).1
    simp at h
  | new m pos k r t => exact List.nodup_singleton _

/-- The node is stored with this entry. -/
def Ent (o : Orders V L) (g : Gr N V L) (hn : 0 < n) (M : Mem n N V L) (c : Nd N V L) (a : Entry N V L) : Prop := a ∈ M.tab (ln o g hn c) ∧ a.node = c

/-- The node is stored. -/
def St (o : Orders V L) (g : Gr N V L) (hn : 0 < n) (M : Mem n N V L) (c : Nd N V L) : Prop := ∃ a, Ent o g hn M c a

/-- The node has been stored or freed. -/
def Done (o : Orders V L) (g : Gr N V L) (hn : 0 < n) (M : Mem n N V L) (c : Nd N V L) : Prop := St o g hn M c ∨ c ∈ M.dead

/-- An edge to a new node has a double from the same vertex with an equal label that's meant for an equal vertex. -/
def Twin (o : Orders V L) (ask : N → L × N → Answer V L) (g : Gr N V L) (e : Edge N V L) : Prop :=
  ∃ f, f ≠ e ∧ IsAnte f ∧ f.src = e.src ∧ Real ask g f.tgt ∧ lq o e f = true ∧ Eqv o g e.tgt f.tgt

/-- What holds of the memory. -/
structure Inv (o : Orders V L) (ask : N → L × N → Answer V L) (g : Gr N V L) (hn : 0 < n) (M : Mem n N V L) : Prop where
  lane : ∀ i, ∀ a ∈ M.tab i, ln o g hn a.node = i
  reps : ∀ i, (M.tab i).Pairwise fun a b => ¬ Eqv o g a.node b.node
  real : ∀ c, Done o g hn M c → Real ask g c ∧ M.mark c.root = true
  mark : ∀ m, M.mark m = true ↔ St o g hn M (.old m)
  reach : ∀ m, M.mark m = true → Reaches (g.next false) g.base m
  dead : ∀ c ∈ M.dead, c.isNew = true ∧ ¬ St o g hn M c ∧ ∃ d, St o g hn M d ∧ Eqv o g c d
  fresh : ∀ c, c.isNew = true → ¬ Done o g hn M c → M.out c = gens ask g c
  wait : ∀ e, IsAnte e → ¬ Done o g hn M e.tgt → M.far e = e.tgt
  still : ∀ e, ¬ IsAnte e → M.far e = e.tgt
  far : ∀ e, IsAnte e → Done o g hn M e.tgt → St o g hn M (M.far e) ∧ Eqv o g e.tgt (M.far e) ∧
    ((M.far e).isNew = true → ∀ a, Ent o g hn M (M.far e) a → some e ∈ a.carriers)
  carr : ∀ c a, c.isNew = true → Ent o g hn M c a → ∀ x ∈ a.carriers, ∃ e, x = some e ∧ IsAnte e ∧ Done o g hn M e.tgt ∧ M.far e = c
  own : ∀ c, St o g hn M c → ∀ e ∈ M.out c, e ∈ gens ask g e.src ∧ Done o g hn M e.src ∧ Eqv o g e.src c
  nodup : ∀ c, St o g hn M c → (M.out c).Nodup
  cover : ∀ c s, St o g hn M c → Done o g hn M s → Eqv o g s c → ∀ e ∈ gens ask g s, ∃ f ∈ M.out c, lq o f e = true ∧ Eqv o g f.tgt e.tgt
  alone : ∀ m, M.mark m = true → (∀ c, c.isNew = true → Done o g hn M c → ¬ Eqv o g c (.old m)) → M.out (.old m) = gens ask g (.old m)
  multi : ∀ c, c.isNew = true → St o g hn M c → (M.out c).Pairwise fun x y => ¬ (lq o x y = true ∧ M.far x = M.far y)
  safe : ∀ e ∈ M.freed, IsAnte e → (M.far e).isNew = true → Twin o ask g e
  bad : M.bad = true → ∃ e w, IsAnte e ∧ Real ask g e.tgt ∧ Reaches (g.next false) g.base e.tgt.root ∧ Twin o ask g e ∧
    Reaches (g.next false) g.base w ∧ Eqv o g e.tgt (.old w)

theorem inv_start : Inv o ask g hn (start g : Job n N V L).mem := by
  have hs : ∀ c, ¬ St o g hn (start g : Job n N V L).mem c := by rintro c ⟨a, h, -⟩; cases h
  have hd : ∀ c, ¬ Done o g hn (start g : Job n N V L).mem c := by rintro c (h | h); exact hs c h; cases h
  constructor
  · intro i a h; cases h
  · intro i; exact List.Pairwise.nil
  · intro c h; exact absurd h (hd c)
  · intro m; exact ⟨fun h => by simp [start] at h, fun h => absurd h (hs _)⟩
  · intro m h; simp [start] at h
  · intro c h; cases h
  · rintro (m | ⟨m, pos, k, r, t⟩) h -
    · simp [Nd.isNew] at h
    · rfl
  · intro e _ _; rfl
  · intro e _; rfl
  · intro e _ h; exact absurd h (hd _)
  · intro c a _ h; exact absurd ⟨a, h⟩ (hs _)
  · intro c h; exact absurd h (hs _)
  · intro c h; exact absurd h (hs _)
  · intro c s h; exact absurd h (hs _)
  · intro m h; simp [start] at h
  · intro c _ h; exact absurd h (hs _)
  · intro e h; cases h
  · intro h; simp [start] at h

section
variable {M : Mem n N V L}

theorem Inv.uniq (hi : Inv o ask g hn M) (ho : o.Lawful) {a b : Nd N V L} (ha : St o g hn M a) (hb : St o g hn M b) (h : Eqv o g a b) : a = b := by
  obtain ⟨x, hx, rfl⟩ := ha
  obtain ⟨y, hy, rfl⟩ := hb
  rw [← Eqv.ln ho h] at hy
  by_contra hne
  haveI : Std.Symm fun a b : Entry N V L => ¬ Eqv o g a.node b.node := ⟨fun x y h h' => h (Eqv.symm ho h')⟩
  exact (hi.reps _).forall hx hy (fun h => hne (by rw [h])) h

theorem Inv.ent (hi : Inv o ask g hn M) (ho : o.Lawful) {c : Nd N V L} {a b : Entry N V L} (ha : Ent o g hn M c a) (hb : Ent o g hn M c b) : a = b := by
  by_contra hne
  haveI : Std.Symm fun a b : Entry N V L => ¬ Eqv o g a.node b.node := ⟨fun x y h h' => h (Eqv.symm ho h')⟩
  refine (hi.reps _).forall ha.1 hb.1 hne ?_
  rw [ha.2, hb.2]
  exact Eqv.refl ho _

theorem Inv.farEqv (hi : Inv o ask g hn M) (ho : o.Lawful) (e : Edge N V L) : Eqv o g e.tgt (M.far e) := by
  by_cases ha : IsAnte e
  · by_cases hd : Done o g hn M e.tgt
    · exact (hi.far e ha hd).2.1
    · rw [hi.wait e ha hd]; exact Eqv.refl ho _
  · rw [hi.still e ha]; exact Eqv.refl ho _

theorem Inv.rep (hi : Inv o ask g hn M) (ho : o.Lawful) {c : Nd N V L} (h : Done o g hn M c) : ∃ d, St o g hn M d ∧ Eqv o g c d := by
  rcases h with h | h
  · exact ⟨c, h, Eqv.refl ho _⟩
  · exact (hi.dead c h).2.2

/-- The edges to new nodes of a stored node are its own. -/
theorem Inv.ante_src (hi : Inv o ask g hn M) (ho : o.Lawful) {c : Nd N V L} (hc : St o g hn M c) {e : Edge N V L} (he : e ∈ M.out c) (ha : IsAnte e) :
    e.src = c := by
  obtain ⟨h1, h2, h3⟩ := hi.own c hc e he
  rw [ha.src] at h2 h3 ⊢
  have : St o g hn M (.old e.tgt.root) := by
    rcases h2 with h2 | h2
    · exact h2
    · have := (hi.dead _ h2).1
      simp [Nd.isNew] at this
  exact hi.uniq ho this hc h3

end

end Cru.Stretch
