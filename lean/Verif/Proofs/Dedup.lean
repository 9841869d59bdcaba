import Verif.Spec.Dedup
import Verif.Proofs.Trav
import Verif.Proofs.Rover
import Verif.Props.Edges

/-! # Invariants of deduplication -/

namespace Cru.Dedup

open Net

variable {n : Nat} {N V L : Type}

theorem deduplicatedEdges_congr {α : Type} {f f' : α → Nat} {leq : α → α → Bool} {es : List α} (h : ∀ e ∈ es, f e = f' e) :
    deduplicatedEdges f leq es = deduplicatedEdges f' leq es := by
  have h1 : judyKeys f es = judyKeys f' es := by
    unfold judyKeys; rw [List.map_congr_left h]
  have h2 : judyBin f es = judyBin f' es := by
    funext k
    unfold judyBin
    rw [List.filter_congr (q := fun e => decide (f' e = k)) fun e he => by rw [h e he]]
  unfold deduplicatedEdges marshalled
  rw [h1, h2]

theorem deduplicatedEdges_nil {α : Type} {f : α → Nat} {leq : α → α → Bool} : deduplicatedEdges f leq [] = ([], []) := rfl

section
variable [DecidableEq V] {o : Orders V L} {v : N → V} {m : N}

theorem lookup_some {cs : List N} {c : N} {e : Int} (ho : o.Lawful) (h : lookup o v m cs = (some c, e)) :
    c ∈ cs ∧ o.Same (v m) (v c) ∧ e = 0 ∧ (v m = v c ∨ (o.equal (v m) (v c)).2 = 0) := by
  induction cs with
  | nil => simp [lookup] at h
  | cons d cs ih =>
    unfold lookup at h
    dsimp only at h
    split_ifs at h with h1 h2 h3
    · simp only [Prod.mk.injEq, Option.some.injEq] at h
      obtain ⟨rfl, rfl⟩ := h
      exact ⟨by simp, h1 ▸ ho.vertex.refl _, rfl, .inl h1⟩
    · simp at h
    · simp only [Prod.mk.injEq, Option.some.injEq] at h
      obtain ⟨rfl, rfl⟩ := h
      exact ⟨by simp, h3, rfl, .inr (not_not.1 h2)⟩
    · have := ih h
      exact ⟨List.mem_cons_of_mem _ this.1, this.2⟩

theorem lookup_none {cs : List N} (ho : o.Lawful) (h : lookup o v m cs = (none, 0)) : ∀ c ∈ cs, ¬ o.Same (v m) (v c) := by
  induction cs with
  | nil => simp
  | cons d cs ih =>
    unfold lookup at h
    dsimp only at h
    split_ifs at h with h1 h2 h3
    · simp at h
    · simp only [Prod.mk.injEq, true_and] at h
      exact absurd h h2
    · simp at h
    · intro c hc
      rcases List.mem_cons.1 hc with rfl | hc
      · exact h3
      · exact ih h c hc

theorem lookup_error {cs : List N} (h : (lookup o v m cs).2 ≠ 0) : ∃ c ∈ cs, (o.equal (v m) (v c)).2 = (lookup o v m cs).2 := by
  induction cs with
  | nil => exact absurd rfl h
  | cons d cs ih =>
    unfold lookup at h ⊢
    dsimp only at h ⊢
    split_ifs at h ⊢ with h1 h2 h3
    · exact absurd rfl h
    · exact ⟨d, by simp, rfl⟩
    · exact absurd rfl h
    · obtain ⟨c, hc, he⟩ := ih h
      exact ⟨c, List.mem_cons_of_mem _ hc, he⟩

end

variable [DecidableEq N] [DecidableEq V] [DecidableEq L]
variable {o : Orders V L} {g : Gr N V L} {addr : N → Nat} {hn : 0 < n}

/-- Edges with equal labels. -/
abbrev lq (o : Orders V L) (a b : Edge N L) : Bool := o.leq a.label b.label

/-- The edges of a node that are kept at first. -/
def D (o : Orders V L) (g : Gr N V L) (addr : N → Nat) (m : N) : List (Edge N L) :=
  (deduplicatedEdges (fun e => addr e.tgt) (lq o) (edges g m)).1

/-- The lane of a node. -/
def ln (o : Orders V L) (g : Gr N V L) (hn : 0 < n) (m : N) : Fin n := Build.lane hn (o.hash (g.vertex m))

/-- The node has been received, and stored or not. -/
def Mt (o : Orders V L) (g : Gr N V L) (hn : 0 < n) (M : Mem n N L) (m : N) (b : Bool) : Prop := (m, b) ∈ M.met (ln o g hn m)

/-- Nodes are equal. -/
abbrev Eqv (o : Orders V L) (g : Gr N V L) (a b : N) : Prop := o.Same (g.vertex a) (g.vertex b)

omit [DecidableEq N] [DecidableEq V] [DecidableEq L] in
theorem Eqv.symm (ho : o.Lawful) {a b : N} (h : Eqv o g a b) : Eqv o g b a := ho.vertex.symm _ _ h

omit [DecidableEq N] [DecidableEq V] [DecidableEq L] in
theorem Eqv.trans (ho : o.Lawful) {a b c : N} (h : Eqv o g a b) (h' : Eqv o g b c) : Eqv o g a c := ho.vertex.trans _ _ _ h h'

omit [DecidableEq N] [DecidableEq V] [DecidableEq L] in
theorem Eqv.hash (ho : o.Lawful) {a b : N} (h : Eqv o g a b) : o.hash (g.vertex a) = o.hash (g.vertex b) := ho.hash _ _ h

omit [DecidableEq N] [DecidableEq V] [DecidableEq L] in
theorem Eqv.ln (ho : o.Lawful) {a b : N} (h : Eqv o g a b) : ln o g hn a = Dedup.ln o g hn b := by
  unfold Dedup.ln; rw [Eqv.hash ho h]

omit [DecidableEq N] [DecidableEq V] [DecidableEq L] in
theorem lq_eq (ho : o.Lawful) : IsEquality (lq (N := N) o) :=
  ⟨fun a => ho.label.refl _, fun a b => ho.label.symm _ _, fun a b c => ho.label.trans _ _ _⟩

omit [DecidableEq N] [DecidableEq V] [DecidableEq L] in
theorem D_spec (ho : o.Lawful) (m : N) : IsTransversal (fun x y : Edge N L => addr x.tgt = addr y.tgt ∧ lq o x y = true) (edges g m)
    (D o g addr m) (deduplicatedEdges (fun e => addr e.tgt) (lq o) (edges g m)).2 :=
  C27_deduplicated_edges (lq_eq ho) _ _

omit [DecidableEq N] [DecidableEq V] [DecidableEq L] in
theorem mem_edges {m : N} {e : Edge N L} (h : e ∈ edges g m) : e.src = m ∧ (e.label, e.tgt) ∈ g.out m := by
  unfold edges at h
  obtain ⟨x, hx, rfl⟩ := List.mem_map.1 h
  exact ⟨rfl, by have := List.mem_zipIdx hx; simp only [Nat.zero_add, Nat.sub_zero] at this; rw [Prod.mk.eta, this.2.2]; exact List.getElem_mem _⟩

omit [DecidableEq N] [DecidableEq V] [DecidableEq L] in
theorem edges_mem {m : N} {f : L × N} (h : f ∈ g.out m) : ∃ e ∈ edges g m, e.label = f.1 ∧ e.tgt = f.2 := by
  obtain ⟨i, hi, rfl⟩ := List.getElem_of_mem h
  exact ⟨⟨m, i, (g.out m)[i].1, (g.out m)[i].2⟩, List.mem_map.2 ⟨((g.out m)[i], i), by
    rw [List.mem_zipIdx_iff_getElem?]; simp [hi], rfl⟩, rfl, rfl⟩

omit [DecidableEq N] [DecidableEq V] [DecidableEq L] in
theorem D_edges (ho : o.Lawful) {m : N} {e : Edge N L} (h : e ∈ D o g addr m) : e ∈ edges g m :=
  (D_spec ho m).perm.mem_iff.1 (List.mem_append_left _ h)

omit [DecidableEq N] [DecidableEq V] [DecidableEq L] in
theorem D_src (ho : o.Lawful) {m : N} {e : Edge N L} (h : e ∈ D o g addr m) : e.src = m := (mem_edges (D_edges ho h)).1

omit [DecidableEq N] [DecidableEq V] [DecidableEq L] in
theorem D_out (ho : o.Lawful) {m : N} {e : Edge N L} (h : e ∈ D o g addr m) : (e.label, e.tgt) ∈ g.out m := (mem_edges (D_edges ho h)).2

omit [DecidableEq N] [DecidableEq V] [DecidableEq L] in
theorem D_covers (ho : o.Lawful) (ha : Function.Injective addr) {m : N} {f : L × N} (h : f ∈ g.out m) :
    ∃ e ∈ D o g addr m, o.leq e.label f.1 = true ∧ e.tgt = f.2 := by
  obtain ⟨e, he, h1, h2⟩ := edges_mem h
  obtain ⟨e', he', h3, h4⟩ := (D_spec (addr := addr) ho m).covers e he
  exact ⟨e', he', h1 ▸ h4, (ha h3).trans h2⟩

/-- The predicate isn't called on these vertices, or it raises no error. -/
def Quiet (o : Orders V L) (g : Gr N V L) (a b : N) : Prop := g.vertex a = g.vertex b ∨ (o.equal (g.vertex a) (g.vertex b)).2 = 0

/-- What holds of the memory. -/
structure Inv (o : Orders V L) (g : Gr N V L) (addr : N → Nat) (hn : 0 < n) (M : Mem n N L) : Prop where
  once : ∀ m, Mt o g hn M m true → Mt o g hn M m false → False
  fresh : ∀ m, (∀ b, ¬ Mt o g hn M m b) → M.out m = edges g m ∧ ∀ e : Edge N L, e.src = m → M.far e = e.tgt
  reps : ∀ a b, Mt o g hn M a true → Mt o g hn M b true → Eqv o g a b → a = b
  gone : ∀ m, Mt o g hn M m false → M.out m = [] ∧ ∃ c, Mt o g hn M c true ∧ Eqv o g m c ∧ Quiet o g m c
  reach : ∀ m b, Mt o g hn M m b → Reaches (g.next false) g.base m
  own : ∀ c, Mt o g hn M c true → ∀ e ∈ M.out c, e ∈ D o g addr e.src ∧ (∃ b, Mt o g hn M e.src b) ∧ Eqv o g e.src c
  alone : ∀ c, Mt o g hn M c true → (∀ m, Mt o g hn M m false → ¬ Eqv o g m c) → M.out c = D o g addr c
  multi : ∀ c m, Mt o g hn M c true → Mt o g hn M m false → Eqv o g m c → (M.out c).Pairwise fun x y => ¬ lq o x y = true
  cover : ∀ c m b, Mt o g hn M c true → Mt o g hn M m b → Eqv o g m c → ∀ e ∈ D o g addr m, ∃ e' ∈ M.out c, lq o e' e = true

omit [DecidableEq N] [DecidableEq V] [DecidableEq L] in
theorem inv_start : Inv o g addr hn (start g : Job n N L).mem :=
  ⟨fun _ h => by simp [Mt, start] at h, fun m _ => ⟨rfl, fun _ _ => rfl⟩, fun _ _ h => by simp [Mt, start] at h, fun _ h => by simp [Mt, start] at h,
    fun _ _ h => by simp [Mt, start] at h, fun _ h => by simp [Mt, start] at h, fun _ h => by simp [Mt, start] at h,
    fun _ _ h => by simp [Mt, start] at h, fun _ _ _ h => by simp [Mt, start] at h⟩

/-- The memory when a node is stored. -/
def stored (o : Orders V L) (g : Gr N V L) (hn : 0 < n) (M : Mem n N L) (m : N) (d : List (Edge N L) × List (Edge N L)) : Mem n N L :=
  { M with out := Function.update M.out m d.1, met := Function.update M.met (ln o g hn m) (M.met (ln o g hn m) ++ [(m, true)]), freed := d.2 ++ M.freed }

omit [DecidableEq V] [DecidableEq L] in
theorem mt_stored {M : Mem n N L} {m : N} {d} {a : N} {b : Bool} :
    Mt o g hn (stored o g hn M m d) a b ↔ Mt o g hn M a b ∨ (a = m ∧ b = true) := by
  unfold Mt stored
  dsimp only
  by_cases h : ln o g hn a = ln o g hn m
  · rw [h, Function.update_self]
    simp
  · rw [Function.update_of_ne h]
    refine ⟨.inl, fun h' => h'.resolve_right ?_⟩
    rintro ⟨rfl, -⟩
    exact h rfl

omit [DecidableEq V] [DecidableEq L] in
theorem inv_stored (ho : o.Lawful) {M : Mem n N L} (hi : Inv o g addr hn M) {m : N} (hm : ∀ b, ¬ Mt o g hn M m b)
    (hr : Reaches (g.next false) g.base m) (hc : ∀ c, Mt o g hn M c true → ¬ Eqv o g m c) (d) (hd : d.1 = D o g addr m) :
    Inv o g addr hn (stored o g hn M m d) := by
  have hout : ∀ a, a ≠ m → (stored o g hn M m d).out a = M.out a := fun a h => Function.update_of_ne h _ _
  have houtm : (stored o g hn M m d).out m = D o g addr m := by rw [← hd]; exact Function.update_self _ _ _
  have hng : ∀ a, Mt o g hn M a false → ¬ Eqv o g a m := by
    intro a ha h
    obtain ⟨-, c, h1, h2, -⟩ := hi.gone a ha
    exact hc c h1 (Eqv.trans ho (Eqv.symm ho h) h2)
  have hne : ∀ a b, Mt o g hn M a b → a ≠ m := by rintro a b h rfl; exact hm b h
  constructor
  · intro a h1 h2
    rw [mt_stored] at h1 h2
    rcases h2 with h2 | ⟨-, h2⟩
    · rcases h1 with h1 | ⟨rfl, -⟩
      · exact hi.once a h1 h2
      · exact hm _ h2
    · cases h2
  · intro a ha
    have ham : a ≠ m := by
      rintro rfl
      exact ha true (mt_stored.2 (.inr ⟨rfl, rfl⟩))
    rw [hout a ham]
    exact hi.fresh a fun b h => ha b (mt_stored.2 (.inl h))
  · intro a b h1 h2 h
    rw [mt_stored] at h1 h2
    rcases h1 with h1 | ⟨rfl, -⟩ <;> rcases h2 with h2 | ⟨rfl, -⟩
    · exact hi.reps a b h1 h2 h
    · exact absurd (Eqv.symm ho h) (hc _ h1)
    · exact absurd h (hc _ h2)
    · rfl
  · intro a h
    rcases mt_stored.1 h with h | ⟨-, h⟩
    · rw [hout a (hne _ _ h)]
      obtain ⟨h1, c, h2, h3⟩ := hi.gone a h
      exact ⟨h1, c, mt_stored.2 (.inl h2), h3⟩
    · cases h
  · intro a b h
    rcases mt_stored.1 h with h | ⟨rfl, -⟩
    · exact hi.reach a b h
    · exact hr
  · intro c h e he
    rcases mt_stored.1 h with h | ⟨rfl, -⟩
    · rw [hout c (hne _ _ h)] at he
      obtain ⟨h1, ⟨b, h2⟩, h3⟩ := hi.own c h e he
      exact ⟨h1, ⟨b, mt_stored.2 (.inl h2)⟩, h3⟩
    · rw [houtm] at he
      have := D_src ho he
      rw [this]
      exact ⟨he, ⟨true, mt_stored.2 (.inr ⟨rfl, rfl⟩)⟩, ho.vertex.refl _⟩
  · intro c h hal
    rcases mt_stored.1 h with h | ⟨rfl, -⟩
    · rw [hout c (hne _ _ h)]
      exact hi.alone c h fun a ha => hal a (mt_stored.2 (.inl ha))
    · exact houtm
  · intro c a h h' hs
    rcases mt_stored.1 h' with k | ⟨-, k⟩
    · rcases mt_stored.1 h with h | ⟨rfl, -⟩
      · rw [hout c (hne _ _ h)]
        exact hi.multi c a h k hs
      · exact absurd hs (hng a k)
    · cases k
  · intro c a b h h' hs e he
    rcases mt_stored.1 h with k | ⟨rfl, -⟩
    · rw [hout c (hne _ _ k)]
      rcases mt_stored.1 h' with h' | ⟨rfl, -⟩
      · exact hi.cover c a b k h' hs e he
      · exact absurd hs (hc _ k)
    · rw [houtm]
      rcases mt_stored.1 h' with h' | ⟨rfl, -⟩
      · cases b with
        | true => exact absurd (Eqv.symm ho hs) (hc _ h')
        | false => exact absurd hs (hng a h')
      · exact ⟨e, he, (lq_eq ho).refl _⟩

omit [DecidableEq V] in
theorem mt_graft {M : Mem n N L} {m c : N} {e : Edge N L} {es} {a : N} {b : Bool} :
    Mt o g hn (graft o (ln o g hn m) M m c e es) a b ↔ Mt o g hn M a b ∨ (a = m ∧ b = false) := by
  unfold Mt graft
  dsimp only
  by_cases h : ln o g hn a = ln o g hn m
  · rw [h, Function.update_self]
    split_ifs with h1
    · refine ⟨.inl, fun h' => h'.elim id ?_⟩
      rintro ⟨rfl, rfl⟩
      exact h1
    · simp
  · rw [Function.update_of_ne h]
    refine ⟨.inl, fun h' => h'.resolve_right ?_⟩
    rintro ⟨rfl, -⟩
    exact h rfl

omit [DecidableEq V] in
theorem inv_graft (ho : o.Lawful) {M : Mem n N L} (hi : Inv o g addr hn M) {m c : N} (hm : ¬ Mt o g hn M m true) (hc : Mt o g hn M c true)
    (hs : Eqv o g m c) (hq : Quiet o g m c) (hr : Reaches (g.next false) g.base m) {e : Edge N L} (he : ∃ b, Mt o g hn M e.src b) {es : List (Edge N L)}
    (hes : (Mt o g hn M m false ∧ es = []) ∨ ((∀ b, ¬ Mt o g hn M m b) ∧ es = D o g addr m)) :
    Inv o g addr hn (graft o (ln o g hn m) M m c e es) := by
  have hcm : c ≠ m := by rintro rfl; exact hm hc
  generalize hM' : graft o (ln o g hn m) M m c e es = M'
  have hmt : ∀ {a b}, Mt o g hn M' a b ↔ Mt o g hn M a b ∨ (a = m ∧ b = false) := by intro a b; rw [← hM']; exact mt_graft
  have hout : ∀ a, a ≠ m → a ≠ c → M'.out a = M.out a := by
    intro a h1 h2
    rw [← hM']
    unfold graft
    dsimp only
    rw [Function.update_of_ne h1, Function.update_of_ne h2]
  have houtm : M'.out m = [] := by rw [← hM']; unfold graft; dsimp only; rw [Function.update_self]
  have houtc : M'.out c = (splitRepeats (lq o) [] (es ++ M.out c)).1 := by
    rw [← hM']; unfold graft; dsimp only; rw [Function.update_of_ne hcm, Function.update_self]
  have hfar : ∀ f : Edge N L, f ≠ e → M'.far f = M.far f := by
    intro f hf; rw [← hM']; unfold graft; dsimp only; rw [Function.update_of_ne hf]
  clear hM'
  obtain ⟨-, h2, h3, -, h5⟩ := splitRepeats_spec (lq_eq ho) (es ++ M.out c) []
  rw [← houtc] at h2 h3 h5
  have htrue : ∀ {a}, Mt o g hn M' a true ↔ Mt o g hn M a true := by
    intro a; rw [hmt]; simp
  have hnm : ∀ a, Mt o g hn M a true → a ≠ m := by rintro a h rfl; exact hm h
  have hcov : ∀ f ∈ es ++ M.out c, ∃ f' ∈ M'.out c, lq o f' f = true := by
    intro f hf
    rcases h5 f hf with h | ⟨_, h, -⟩
    · exact h
    · cases h
  constructor
  · intro a h1 h2
    rw [htrue] at h1
    rcases hmt.1 h2 with h2 | ⟨rfl, -⟩
    · exact hi.once a h1 h2
    · exact hm h1
  · intro a ha
    have h1 : ∀ b, ¬ Mt o g hn M a b := fun b h => ha b (hmt.2 (.inl h))
    have ham : a ≠ m := by rintro rfl; exact ha false (hmt.2 (.inr ⟨rfl, rfl⟩))
    have hac : a ≠ c := by rintro rfl; exact h1 _ hc
    rw [hout a ham hac]
    refine ⟨(hi.fresh a h1).1, fun f hf => ?_⟩
    rw [hfar f ?_]
    · exact (hi.fresh a h1).2 f hf
    · rintro rfl
      obtain ⟨b, hb⟩ := he
      exact h1 b (hf ▸ hb)
  · intro a b h1 h2 h
    exact hi.reps a b (htrue.1 h1) (htrue.1 h2) h
  · intro a h
    by_cases ham : a = m
    · subst ham
      exact ⟨houtm, c, htrue.2 hc, hs, hq⟩
    · have h' := (hmt.1 h).resolve_right fun h => ham h.1
      obtain ⟨h1, d, h2, h3⟩ := hi.gone a h'
      have hac : a ≠ c := by rintro rfl; exact hi.once _ hc h'
      rw [hout a ham hac]
      exact ⟨h1, d, htrue.2 h2, h3⟩
  · intro a b h
    rcases hmt.1 h with h | ⟨rfl, -⟩
    · exact hi.reach a b h
    · exact hr
  · intro d h f hf
    have h' := htrue.1 h
    by_cases hdc : d = c
    · subst hdc
      rcases List.mem_append.1 (h2.subset hf) with hf | hf
      · rcases hes with ⟨-, rfl⟩ | ⟨-, rfl⟩
        · cases hf
        · have := D_src ho hf
          rw [this]
          exact ⟨hf, ⟨false, hmt.2 (.inr ⟨rfl, rfl⟩)⟩, hs⟩
      · obtain ⟨h1, ⟨b, h2⟩, h3⟩ := hi.own d h' f hf
        exact ⟨h1, ⟨b, hmt.2 (.inl h2)⟩, h3⟩
    · rw [hout d (hnm d h') hdc] at hf
      obtain ⟨h1, ⟨b, h2⟩, h3⟩ := hi.own d h' f hf
      exact ⟨h1, ⟨b, hmt.2 (.inl h2)⟩, h3⟩
  · intro d h hal
    have h' := htrue.1 h
    have hdc : d ≠ c := by
      rintro rfl
      exact hal m (hmt.2 (.inr ⟨rfl, rfl⟩)) hs
    rw [hout d (hnm d h') hdc]
    exact hi.alone d h' fun a ha => hal a (hmt.2 (.inl ha))
  · intro d a h ha hsd
    have h' := htrue.1 h
    by_cases hdc : d = c
    · subst hdc; exact h3
    · rw [hout d (hnm d h') hdc]
      rcases hmt.1 ha with ha | ⟨rfl, -⟩
      · exact hi.multi d a h' ha hsd
      · exact absurd (hi.reps d c h' hc (Eqv.trans ho (Eqv.symm ho hsd) hs)) hdc
  · intro d a b h ha hsd f hf
    have h' := htrue.1 h
    by_cases hdc : d = c
    · subst hdc
      have : ∃ f' ∈ es ++ M.out d, lq o f' f = true := by
        by_cases hold : Mt o g hn M a b
        · obtain ⟨f', h1, h2⟩ := hi.cover d a b h' hold hsd f hf
          exact ⟨f', List.mem_append_right _ h1, h2⟩
        · obtain ⟨rfl, rfl⟩ := (hmt.1 ha).resolve_left hold
          rcases hes with ⟨h1, -⟩ | ⟨-, rfl⟩
          · exact absurd h1 hold
          · exact ⟨f, List.mem_append_left _ hf, (lq_eq ho).refl _⟩
      obtain ⟨f', h1, h2⟩ := this
      obtain ⟨f'', h3, h4⟩ := hcov f' h1
      exact ⟨f'', h3, (lq_eq ho).trans _ _ _ h4 h2⟩
    · rw [hout d (hnm d h') hdc]
      rcases hmt.1 ha with ha | ⟨rfl, -⟩
      · exact hi.cover d a b h' ha hsd f hf
      · exact absurd (hi.reps d c h' hc (Eqv.trans ho (Eqv.symm ho hsd) hs)) hdc

omit [DecidableEq N] [DecidableEq V] [DecidableEq L] in
theorem mem_bin {M : Mem n N L} {m c : N} : c ∈ bin o g.vertex M.met (ln o g hn m) m ↔ Mt o g hn M c true ∧ o.hash (g.vertex c) = o.hash (g.vertex m) := by
  unfold bin Mt
  simp only [List.mem_map, List.mem_filter, Bool.and_eq_true, decide_eq_true_eq, Prod.exists, exists_and_right, exists_eq_right]
  constructor
  · rintro ⟨b, h1, rfl, h3⟩
    have : ln o g hn c = ln o g hn m := by unfold ln; rw [h3]
    rw [this]; exact ⟨h1, h3⟩
  · rintro ⟨h1, h3⟩
    have : ln o g hn c = ln o g hn m := by unfold ln; rw [h3]
    rw [this] at h1
    exact ⟨true, h1, rfl, h3⟩

/-- What's done with a packet. -/
inductive Outcome (o : Orders V L) (g : Gr N V L) (addr : N → Nat) (hn : 0 < n) (s : Job n N L) (p : Pkt N L) : Job n N L × List (Pkt N L) → Prop
  | error (c : N) (hc : Mt o g hn s.mem c true) (e : Int) (he : e ≠ 0) (hq : (o.equal (g.vertex p.node) (g.vertex c)).2 = e) :
      Outcome o g addr hn s p ({ s with err := Function.update s.err (ln o g hn p.node) e }, [])
  | known (hm : Mt o g hn s.mem p.node true) : Outcome o g addr hn s p (s, [])
  | store (d : List (Edge N L) × List (Edge N L)) (hd : d.1 = D o g addr p.node) (hd' : (d.1 ++ d.2).Perm (s.mem.out p.node)) (hm : ∀ b, ¬ Mt o g hn s.mem p.node b)
      (hc : ∀ c, Mt o g hn s.mem c true → ¬ Eqv o g p.node c) :
      Outcome o g addr hn s p ({ s with mem := stored o g hn s.mem p.node d }, (D o g addr p.node).map fun e => ⟨e.tgt, some e⟩)
  | again (c : N) (e : Edge N L) (hp : p.carrier = some e) (hm : Mt o g hn s.mem p.node false) (hc : Mt o g hn s.mem c true)
      (hs : Eqv o g p.node c) (hq : Quiet o g p.node c) :
      Outcome o g addr hn s p ({ s with mem := graft o (ln o g hn p.node) s.mem p.node c e [] }, [])
  | fuse (c : N) (e : Edge N L) (hp : p.carrier = some e) (d : List (Edge N L) × List (Edge N L)) (hd : d.1 = D o g addr p.node) (hd' : (d.1 ++ d.2).Perm (s.mem.out p.node))
      (hm : ∀ b, ¬ Mt o g hn s.mem p.node b) (hc : Mt o g hn s.mem c true) (hs : Eqv o g p.node c) (hq : Quiet o g p.node c) :
      Outcome o g addr hn s p ({ s with mem := graft o (ln o g hn p.node) { s.mem with freed := d.2 ++ s.mem.freed } p.node c e d.1 },
        (D o g addr p.node).map fun e => ⟨e.tgt, some e⟩)

theorem act_outcome (ho : o.Lawful) {s : Job n N L} (hi : Inv o g addr hn s.mem) {p : Pkt N L}
    (hp : p.carrier = none → ∀ m b, ¬ Mt o g hn s.mem m b) : Outcome o g addr hn s p (act o g addr (ln o g hn p.node) s p) := by
  unfold act
  rcases hl : lookup o g.vertex p.node (bin o g.vertex s.mem.met (ln o g hn p.node) p.node) with ⟨w, x⟩
  dsimp only
  by_cases hx : x = 0
  swap
  · rw [if_pos hx]
    obtain ⟨c, h1, h2⟩ := lookup_error (o := o) (v := g.vertex) (m := p.node) (cs := bin o g.vertex s.mem.met (ln o g hn p.node) p.node) (by rw [hl]; exact hx)
    rw [hl] at h2
    exact .error c (mem_bin.1 h1).1 x hx h2
  subst hx
  rw [if_neg (by simp)]
  have hfresh : ∀ hm : ∀ b, ¬ Mt o g hn s.mem p.node b,
      deduplicatedEdges (fun e => addr (s.mem.far e)) (lq o) (s.mem.out p.node) = deduplicatedEdges (fun e => addr e.tgt) (lq o) (edges g p.node) := by
    intro hm
    rw [(hi.fresh _ hm).1]
    refine deduplicatedEdges_congr fun e he => ?_
    rw [(hi.fresh _ hm).2 e (mem_edges he).1]
  have hsend : ∀ hm : ∀ b, ¬ Mt o g hn s.mem p.node b, ((D o g addr p.node).map fun e => (⟨s.mem.far e, some e⟩ : Pkt N L)) =
      (D o g addr p.node).map fun e => ⟨e.tgt, some e⟩ := by
    intro hm
    refine List.map_congr_left fun e he => ?_
    rw [(hi.fresh _ hm).2 e (D_src ho he)]
  have hperm := (D_spec (addr := addr) (g := g) ho p.node).perm
  cases w with
  | none =>
    rw [if_neg (by simp)]
    have h1 : ∀ c, Mt o g hn s.mem c true → ¬ Eqv o g p.node c := by
      intro c hc h
      exact lookup_none ho hl c (mem_bin.2 ⟨hc, (Eqv.hash ho h).symm⟩) h
    have hm : ∀ b, ¬ Mt o g hn s.mem p.node b := by
      intro b hb
      cases b with
      | true => exact h1 _ hb (ho.vertex.refl _)
      | false =>
        obtain ⟨-, c, h2, h3, -⟩ := hi.gone _ hb
        exact h1 c h2 h3
    have := Outcome.store (s := s) (p := p) (addr := addr) (o := o) (g := g) (hn := hn) _ rfl (by rw [(hi.fresh _ hm).1]; exact hperm) hm h1
    dsimp only
    rw [hfresh hm]
    rw [← hsend hm] at this
    exact this
  | some c =>
    obtain ⟨h1, h2, -, h3⟩ := lookup_some ho hl
    obtain ⟨h1, -⟩ := mem_bin.1 h1
    by_cases hcp : c = p.node
    · rw [if_pos (by rw [hcp])]
      exact .known (hcp ▸ h1)
    · rw [if_neg (by simpa using hcp)]
      have hnt : ¬ Mt o g hn s.mem p.node true := fun h => hcp (hi.reps _ _ h1 h (Eqv.symm ho h2))
      rcases hcar : p.carrier with _ | e
      · exact absurd h1 (hp hcar _ _)
      · dsimp only
        by_cases hf : Mt o g hn s.mem p.node false
        · have hnil := (hi.gone _ hf).1
          rw [hnil, deduplicatedEdges_nil]
          exact .again c e hcar hf h1 h2 h3
        · have hm : ∀ b, ¬ Mt o g hn s.mem p.node b := by
            intro b hb
            cases b with
            | true => exact hnt hb
            | false => exact hf hb
          have := Outcome.fuse (s := s) (p := p) (addr := addr) (o := o) (g := g) (hn := hn) c e hcar _ rfl (by rw [(hi.fresh _ hm).1]; exact hperm) hm h1 h2 h3
          rw [hfresh hm]
          rw [← hsend hm] at this
          exact this

omit [DecidableEq N] [DecidableEq V] [DecidableEq L] in
theorem inv_freed {M : Mem n N L} (hi : Inv o g addr hn M) (x) : Inv o g addr hn { M with freed := x } :=
  ⟨hi.once, hi.fresh, hi.reps, hi.gone, hi.reach, hi.own, hi.alone, hi.multi, hi.cover⟩

/-- What holds of the errors, the memory, and the packets pending. -/
structure Full (o : Orders V L) (g : Gr N V L) (addr : N → Nat) (hn : 0 < n) (s : Job n N L) (bag : Multiset (Pkt N L)) : Prop where
  inv : Inv o g addr hn s.mem
  fly : ∀ p ∈ bag, ∀ e, p.carrier = some e → p.node = e.tgt ∧ e ∈ D o g addr e.src ∧ ∃ b, Mt o g hn s.mem e.src b
  first : (bag = {⟨g.base, none⟩} ∧ (∀ m b, ¬ Mt o g hn s.mem m b) ∧ ∀ i, s.err i = 0) ∨ (Mt o g hn s.mem g.base true ∧ ∀ p ∈ bag, p.carrier ≠ none)
  far : (∀ i, s.err i = 0) → ∀ m b, Mt o g hn s.mem m b → ∀ e ∈ D o g addr m, (⟨e.tgt, some e⟩ ∈ bag ∧ s.mem.far e = e.tgt) ∨
    (Mt o g hn s.mem (s.mem.far e) true ∧ Eqv o g e.tgt (s.mem.far e) ∧ ∃ b, Mt o g hn s.mem e.tgt b)
  errs : ∀ i, s.err i ≠ 0 → ∃ a b, Reaches (g.next false) g.base a ∧ Reaches (g.next false) g.base b ∧ (o.equal (g.vertex a) (g.vertex b)).2 = s.err i

omit [DecidableEq N] [DecidableEq V] [DecidableEq L] in
theorem full_start : Full o g addr hn (start g : Job n N L) {⟨g.base, none⟩} :=
  ⟨inv_start, fun p hp e he => (by rw [Multiset.mem_singleton.1 hp] at he; cases he), .inl ⟨rfl, fun m b h => by simp [Mt, start] at h, fun _ => rfl⟩,
    fun _ m b h => by simp [Mt, start] at h, fun i h => absurd rfl h⟩

omit [DecidableEq N] [DecidableEq V] [DecidableEq L] in
theorem Full.reaches (ho : o.Lawful) {s : Job n N L} {bag} (hf : Full o g addr hn s bag) {p} (hp : p ∈ bag) : Reaches (g.next false) g.base p.node := by
  rcases hc : p.carrier with _ | e
  · rcases hf.first with ⟨h, -⟩ | ⟨-, h⟩
    · rw [h] at hp; rw [Multiset.mem_singleton.1 hp]
    · exact absurd hc (h p hp)
  · obtain ⟨h1, h2, b, h3⟩ := hf.fly p hp e hc
    rw [h1]
    exact (hf.inv.reach _ _ h3).tail (List.mem_map.2 ⟨_, D_out ho h2, rfl⟩)

theorem full_step (ho : o.Lawful) {s : Job n N L} {p : Pkt N L} {rest : Multiset (Pkt N L)} (hf : Full o g addr hn s (p ::ₘ rest))
    {x : Job n N L × List (Pkt N L)} (hx : Outcome o g addr hn s p x) : Full o g addr hn x.1 ((x.2 : Multiset (Pkt N L)) + rest) := by
  have hp : p ∈ p ::ₘ rest := Multiset.mem_cons_self _ _
  have hr := hf.reaches ho hp
  have hrest : ∀ q ∈ rest, q ∈ p ::ₘ rest := fun q h => Multiset.mem_cons_of_mem h
  -- after the first packet
  have hfirst : ∀ e, p.carrier = some e → Mt o g hn s.mem g.base true ∧ ∀ q ∈ rest, q.carrier ≠ none := by
    intro e he
    rcases hf.first with ⟨h, -⟩ | ⟨h1, h2⟩
    · rw [h] at hp; rw [Multiset.mem_singleton.1 hp] at he; cases he
    · exact ⟨h1, fun q hq => h2 q (hrest q hq)⟩
  have hfirst' : p.carrier = none → p.node = g.base ∧ rest = 0 ∧ ∀ m b, ¬ Mt o g hn s.mem m b := by
    intro he
    rcases hf.first with ⟨h, h', -⟩ | ⟨h1, h2⟩
    · have hpe := hp
      rw [h] at hpe
      rw [Multiset.mem_singleton.1 hpe] at h ⊢
      refine ⟨rfl, ?_, h'⟩
      exact (Multiset.cons_inj_right _).1 h
    · exact absurd he (h2 p hp)
  cases hx with
  | error c hc e he hq =>
    refine ⟨hf.inv, fun q hq => hf.fly q (hrest q (by simpa using hq)), .inr ?_, fun hz => ?_, fun i hi => ?_⟩
    · rcases hcar : p.carrier with _ | e'
      · exact absurd hc ((hfirst' hcar).2.2 _ _)
      · have := hfirst e' hcar
        exact ⟨this.1, fun q hq => this.2 q (by simpa using hq)⟩
    · have := hz (ln o g hn p.node)
      simp only [Function.update_self] at this
      exact absurd this he
    · dsimp only at hi ⊢
      by_cases h : i = ln o g hn p.node
      · subst h
        rw [Function.update_self]
        exact ⟨p.node, c, hr, hf.inv.reach _ _ hc, hq⟩
      · rw [Function.update_of_ne h] at hi ⊢
        exact hf.errs i hi
  | known hm =>
    refine ⟨hf.inv, fun q hq => hf.fly q (hrest q (by simpa using hq)), .inr ?_, fun hz m b hmb e he => ?_, hf.errs⟩
    · rcases hcar : p.carrier with _ | e'
      · exact absurd hm ((hfirst' hcar).2.2 _ _)
      · have := hfirst e' hcar
        exact ⟨this.1, fun q hq => this.2 q (by simpa using hq)⟩
    · rcases hf.far hz m b hmb e he with ⟨h1, h2⟩ | h
      · rcases Multiset.mem_cons.1 h1 with h1 | h1
        · right
          rw [h2]
          have : p.node = e.tgt := by rw [← h1]
          rw [← this]
          exact ⟨hm, ho.vertex.refl _, true, hm⟩
        · left; exact ⟨by simpa using h1, h2⟩
      · exact .inr h
  | store d hd hd' hm hc =>
    have hmt : ∀ {a b}, Mt o g hn s.mem a b → Mt o g hn (stored o g hn s.mem p.node d) a b := fun h => mt_stored.2 (.inl h)
    have hmp : Mt o g hn (stored o g hn s.mem p.node d) p.node true := mt_stored.2 (.inr ⟨rfl, rfl⟩)
    refine ⟨inv_stored ho hf.inv hm hr hc d hd, fun q hq e he => ?_, .inr ⟨?_, fun q hq => ?_⟩, fun hz m b hmb e he => ?_, hf.errs⟩
    · rcases Multiset.mem_add.1 hq with hq | hq
      · obtain ⟨f, hf', rfl⟩ := List.mem_map.1 (Multiset.mem_coe.1 hq)
        cases he
        refine ⟨rfl, ?_, true, ?_⟩
        · rw [D_src ho hf']; exact hf'
        · rw [D_src ho hf']; exact hmp
      · obtain ⟨h1, h2, b, h3⟩ := hf.fly q (hrest q hq) e he
        exact ⟨h1, h2, b, hmt h3⟩
    · rcases hcar : p.carrier with _ | e'
      · rw [← (hfirst' hcar).1]; exact hmp
      · exact hmt (hfirst e' hcar).1
    · rcases Multiset.mem_add.1 hq with hq | hq
      · obtain ⟨f, hf', rfl⟩ := List.mem_map.1 (Multiset.mem_coe.1 hq)
        simp
      · rcases hcar : p.carrier with _ | e'
        · rw [(hfirst' hcar).2.1] at hq; cases hq
        · exact (hfirst e' hcar).2 q hq
    · rcases mt_stored.1 hmb with hmb | ⟨rfl, -⟩
      · rcases hf.far hz m b hmb e he with ⟨h1, h2⟩ | ⟨h1, h2, b', h3⟩
        · rcases Multiset.mem_cons.1 h1 with h1 | h1
          · right
            have : p.node = e.tgt := by rw [← h1]
            have h3 : (stored o g hn s.mem p.node d).far e = p.node := by rw [this]; exact h2
            dsimp only
            rw [h3, ← this]
            exact ⟨hmp, ho.vertex.refl _, true, hmp⟩
          · left; exact ⟨Multiset.mem_add.2 (.inr h1), h2⟩
        · exact .inr ⟨hmt h1, h2, b', hmt h3⟩
      · left
        exact ⟨Multiset.mem_add.2 (.inl (Multiset.mem_coe.2 (List.mem_map.2 ⟨e, he, rfl⟩))), (hf.inv.fresh _ hm).2 e (D_src ho he)⟩
  | again c e hcar hm hc hs hq =>
    obtain ⟨hb1, hb2⟩ := hfirst e hcar
    obtain ⟨ht, he1, b1, he2⟩ := hf.fly p hp e hcar
    have hmt : ∀ {a b}, Mt o g hn s.mem a b → Mt o g hn (graft o (ln o g hn p.node) s.mem p.node c e []) a b := fun h => mt_graft.2 (.inl h)
    refine ⟨inv_graft ho hf.inv (fun h => hf.inv.once _ h hm) hc hs hq hr ⟨b1, he2⟩ (.inl ⟨hm, rfl⟩), fun q hq f hf' => ?_, .inr ⟨hmt hb1, fun q hq => hb2 q (by simpa using hq)⟩,
      fun hz m b hmb f hf' => ?_, hf.errs⟩
    · obtain ⟨h1, h2, b, h3⟩ := hf.fly q (hrest q (by simpa using hq)) f hf'
      exact ⟨h1, h2, b, hmt h3⟩
    · have hmb : ∃ b, Mt o g hn s.mem m b := (mt_graft.1 hmb).elim (fun h => ⟨b, h⟩) fun h => h.1 ▸ ⟨false, hm⟩
      obtain ⟨b, hmb⟩ := hmb
      by_cases hfe : f = e
      · subst hfe
        right
        have : (graft o (ln o g hn p.node) s.mem p.node c f []).far f = c := by unfold graft; simp
        dsimp only
        rw [this, ← ht]
        exact ⟨hmt hc, hs, false, hmt hm⟩
      · have : (graft o (ln o g hn p.node) s.mem p.node c e []).far f = s.mem.far f := by
          unfold graft; dsimp only; rw [Function.update_of_ne hfe]
        dsimp only
        rw [this]
        rcases hf.far hz m b hmb f hf' with ⟨h1, h2⟩ | ⟨h1, h2, b', h3⟩
        · rcases Multiset.mem_cons.1 h1 with h1 | h1
          · rw [← h1] at hcar; cases hcar; exact absurd rfl hfe
          · left; exact ⟨by simpa using h1, h2⟩
        · exact .inr ⟨hmt h1, h2, b', hmt h3⟩
  | fuse c e hcar d hd hd' hm hc hs hq' =>
    obtain ⟨hb1, hb2⟩ := hfirst e hcar
    obtain ⟨ht, he1, b1, he2⟩ := hf.fly p hp e hcar
    generalize hM : ({ s.mem with freed := d.2 ++ s.mem.freed } : Mem n N L) = M
    have hi : Inv o g addr hn M := by rw [← hM]; exact inv_freed hf.inv _
    have hmt' : ∀ {a b}, Mt o g hn s.mem a b ↔ Mt o g hn M a b := by intro a b; rw [← hM]; exact Iff.rfl
    have hmt : ∀ {a b}, Mt o g hn s.mem a b → Mt o g hn (graft o (ln o g hn p.node) M p.node c e d.1) a b := fun h => mt_graft.2 (.inl (hmt'.1 h))
    have hmp : Mt o g hn (graft o (ln o g hn p.node) M p.node c e d.1) p.node false := mt_graft.2 (.inr ⟨rfl, rfl⟩)
    have hfar : M.far = s.mem.far := by rw [← hM]
    refine ⟨inv_graft ho hi (fun h => hm _ (hmt'.2 h)) (hmt'.1 hc) hs hq' hr ⟨b1, hmt'.1 he2⟩ (.inr ⟨fun b h => hm b (hmt'.2 h), hd⟩), fun q hq f hf' => ?_,
      .inr ⟨hmt hb1, fun q hq => ?_⟩, fun hz m b hmb f hf' => ?_, hf.errs⟩
    · rcases Multiset.mem_add.1 hq with hq | hq
      · obtain ⟨f', hf'', rfl⟩ := List.mem_map.1 (Multiset.mem_coe.1 hq)
        cases hf'
        refine ⟨rfl, ?_, false, ?_⟩
        · rw [D_src ho hf'']; exact hf''
        · rw [D_src ho hf'']; exact hmp
      · obtain ⟨h1, h2, b, h3⟩ := hf.fly q (hrest q hq) f hf'
        exact ⟨h1, h2, b, hmt h3⟩
    · rcases Multiset.mem_add.1 hq with hq | hq
      · obtain ⟨f', hf'', rfl⟩ := List.mem_map.1 (Multiset.mem_coe.1 hq)
        simp
      · exact hb2 q hq
    · by_cases hfe : f = e
      · subst hfe
        right
        have : (graft o (ln o g hn p.node) M p.node c f d.1).far f = c := by unfold graft; simp
        dsimp only
        rw [this, ← ht]
        exact ⟨hmt hc, hs, false, hmp⟩
      · have : (graft o (ln o g hn p.node) M p.node c e d.1).far f = s.mem.far f := by
          unfold graft; dsimp only; rw [Function.update_of_ne hfe, hfar]
        dsimp only
        rw [this]
        rcases mt_graft.1 hmb with hmb | ⟨rfl, -⟩
        · rcases hf.far hz m b (hmt'.2 hmb) f hf' with ⟨h1, h2⟩ | ⟨h1, h2, b', h3⟩
          · rcases Multiset.mem_cons.1 h1 with h1 | h1
            · rw [← h1] at hcar; cases hcar; exact absurd rfl hfe
            · left; exact ⟨Multiset.mem_add.2 (.inr h1), h2⟩
          · exact .inr ⟨hmt h1, h2, b', hmt h3⟩
        · left
          exact ⟨Multiset.mem_add.2 (.inl (Multiset.mem_coe.2 (List.mem_map.2 ⟨f, hf', rfl⟩))), (hf.inv.fresh _ hm).2 f (D_src ho hf')⟩

/-- The packets sent. -/
theorem handled {s : Job n N L} {p : Pkt N L} (h : s.err (ln o g hn p.node) = 0) :
    ((task o g addr hn).handle ((task o g addr hn).dest p) s p).1 = (act o g addr (ln o g hn p.node) s p).1 ∧
    Bag.produced (task o g addr hn) s p = ((act o g addr (ln o g hn p.node) s p).2 : Multiset (Pkt N L)) := by
  have h' : ¬ s.err ((task o g addr hn).dest p) ≠ 0 := not_not.2 h
  have : (task o g addr hn).handle ((task o g addr hn).dest p) s p = ((act o g addr (ln o g hn p.node) s p).1, (act o g addr (ln o g hn p.node) s p).2, false) := if_neg h'
  unfold Bag.produced
  rw [this]
  simp

theorem unhandled {s : Job n N L} {p : Pkt N L} (h : s.err (ln o g hn p.node) ≠ 0) :
    ((task o g addr hn).handle ((task o g addr hn).dest p) s p).1 = s ∧ Bag.produced (task o g addr hn) s p = 0 := by
  have : (task o g addr hn).handle ((task o g addr hn).dest p) s p = (s, [], false) := if_pos h
  unfold Bag.produced
  rw [this]
  simp

theorem full_reach (ho : o.Lawful) : ∀ x, Bag.Reach (task o g addr hn) ⟨g.base, none⟩ (start g) x → Full o g addr hn x.1 x.2 := by
  intro x hx
  induction hx with
  | init => exact full_start
  | step hr hs ih =>
    cases hs with
    | env e s m => exact nomatch e
    | handle s p rest =>
      dsimp only at ih ⊢
      by_cases he : s.err (ln o g hn p.node) = 0
      · obtain ⟨h1, h2⟩ := handled (addr := addr) he
        rw [h1, h2]
        refine full_step ho ih (act_outcome ho ih.inv fun hc => ?_)
        rcases ih.first with ⟨-, h, -⟩ | ⟨-, h⟩
        · exact h
        · exact absurd hc (h p (Multiset.mem_cons_self _ _))
      · obtain ⟨h1, h2⟩ := unhandled (addr := addr) he
        rw [h1, h2, zero_add]
        refine ⟨ih.inv, fun q hq => ih.fly q (Multiset.mem_cons_of_mem hq), .inr ?_, fun hz => absurd (hz _) he, ih.errs⟩
        rcases ih.first with ⟨-, -, h⟩ | ⟨h1, h2⟩
        · exact absurd (h _) he
        · exact ⟨h1, fun q hq => h2 q (Multiset.mem_cons_of_mem hq)⟩

end Cru.Dedup
