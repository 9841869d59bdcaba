import Verif.Proofs.StretchFull

/-! # The outcome of stretching -/

namespace Cru.Stretch

open Net Dedup

section
variable {n : Nat} {N V L : Type}
variable {o : Orders V L} {ask : N → L × N → Answer V L} {g : Gr N V L} {addr : Nd N V L → Nat} {limit : Nat} {hn : 0 < n}

theorem status_zero {s : Job n N V L} : status s = 0 ↔ ∀ i, s.err i = 0 := by
  unfold status
  rw [(Build.status_fold _ _).1]
  simp

theorem status_mem {s : Job n N V L} (h : status s ≠ 0) : ∃ i, s.err i = status s := by
  unfold status at h ⊢
  rcases (Build.status_fold ((List.finRange n).map s.err) 0).2 with h1 | h1
  · exact absurd h1 h
  · rw [List.mem_map] at h1
    obtain ⟨i, _, hi⟩ := h1
    exact ⟨i, hi⟩

/-- The memory in the end, when nothing went wrong. -/
structure Final (o : Orders V L) (ask : N → L × N → Answer V L) (g : Gr N V L) (limit : Nat) (hn : 0 < n) (M : Mem n N V L) : Prop where
  inv : Inv o ask g hn M
  all : ∀ m, Reaches (g.next false) g.base m → M.mark m = true
  made : ∀ c : Nd N V L, Real ask g c → Reaches (g.next false) g.base c.root → Done o g hn M c
  fit : limit ≠ 0 → ∀ i, (M.tab i).length ≤ limit

theorem failure_mem {m : N} (h : failure ask g m ≠ 0) : ∃ e ∈ g.out m, (ask m e).err = failure ask g m := by
  unfold failure at h ⊢
  rcases (Build.status_fold ((g.out m).map fun e => (ask m e).err) 0).2 with h1 | h1
  · exact absurd h1 h
  · obtain ⟨e, he, h2⟩ := List.mem_map.1 h1
    exact ⟨e, he, h2⟩

theorem real_requested (hw : g.WF) {c : Nd N V L} (hr : Real ask g c) (hc : Reaches (g.next false) g.base c.root) :
    (∃ m ∈ g.nodes, g.vertex m = vertex g c) ∨ Requested g ask (vertex g c) := by
  cases c with
  | old m => exact .inl ⟨m, (hw.reach _).2 hc, rfl⟩
  | new m pos k r t =>
    obtain ⟨e, h1, -, h2⟩ := hr
    exact .inr ⟨m, (hw.reach _).2 hc, e, List.mem_of_getElem? h1, r, List.mem_of_getElem? h2, rfl⟩

theorem requested_real (hw : g.WF) {v : V} (h : Requested g ask v) :
    ∃ c : Nd N V L, c.isNew = true ∧ Real ask g c ∧ Reaches (g.next false) g.base c.root ∧ vertex g c = v := by
  obtain ⟨m, hm, e, he, q, hq, rfl⟩ := h
  obtain ⟨pos, hp⟩ := List.getElem?_of_mem he
  obtain ⟨k, hk⟩ := List.getElem?_of_mem hq
  exact ⟨.new m pos k q e.2, rfl, ⟨e, hp, rfl, hk⟩, (hw.reach _).1 hm, rfl⟩

/-- The edges that are contributed are those there should be. -/
theorem gens_made (hw : g.WF) {s : Nd N V L} (hr : Real ask g s) (hs : Reaches (g.next false) g.base s.root) {e : Edge N V L} (he : e ∈ gens ask g s) :
    Made g ask (vertex g s) e.label (vertex g e.tgt) ∧ Real ask g e.tgt ∧ Reaches (g.next false) g.base e.tgt.root := by
  cases s with
  | old m =>
    have hm := (hw.reach _).2 hs
    rcases List.mem_append.1 he with h | h
    · obtain ⟨pos, f, h1, h2, rfl⟩ := mem_kept.1 h
      have hf := List.mem_of_getElem? h1
      exact ⟨.keep hm hf h2, trivial, Relation.ReflTransGen.tail hs (List.mem_map.2 ⟨f, hf, rfl⟩)⟩
    · obtain ⟨⟨m', pos, k, r, t, rfl⟩, h2, h3⟩ := mem_antes.1 h
      cases h2
      refine ⟨?_, h3, hs⟩
      obtain ⟨f, h4, -, h5⟩ := h3
      exact .ante hm (List.mem_of_getElem? h4) (List.mem_of_getElem? h5)
  | new m pos k r t =>
    have hm := (hw.reach _).2 hs
    rw [List.mem_singleton.1 he]
    obtain ⟨f, h4, rfl, h5⟩ := hr
    have hf := List.mem_of_getElem? h4
    exact ⟨.post hm hf (List.mem_of_getElem? h5), trivial, Relation.ReflTransGen.tail hs (List.mem_map.2 ⟨f, hf, rfl⟩)⟩

theorem made_gens (hw : g.WF) {u l w} (h : Made g ask u l w) : ∃ s : Nd N V L, Real ask g s ∧ Reaches (g.next false) g.base s.root ∧ vertex g s = u ∧
    ∃ e ∈ gens ask g s, e.label = l ∧ vertex g e.tgt = w := by
  cases h with
  | keep hm he hd =>
    rename_i m e
    obtain ⟨pos, hp⟩ := List.getElem?_of_mem he
    exact ⟨.old m, trivial, (hw.reach _).1 hm, rfl, _, List.mem_append_left _ (mem_kept.2 ⟨pos, e, hp, hd, rfl⟩), rfl, rfl⟩
  | ante hm he hq =>
    rename_i m e q
    obtain ⟨pos, hp⟩ := List.getElem?_of_mem he
    obtain ⟨k, hk⟩ := List.getElem?_of_mem hq
    exact ⟨.old m, trivial, (hw.reach _).1 hm, rfl, _, List.mem_append_right _ (mem_antes.2 ⟨⟨m, pos, k, q, e.2, rfl⟩, rfl, e, hp, rfl, hk⟩), rfl, rfl⟩
  | post hm he hq =>
    rename_i m e q
    obtain ⟨pos, hp⟩ := List.getElem?_of_mem he
    obtain ⟨k, hk⟩ := List.getElem?_of_mem hq
    exact ⟨.new m pos k q e.2, ⟨e, hp, rfl, hk⟩, (hw.reach _).1 hm, rfl, _, List.mem_singleton.2 rfl, rfl, rfl⟩

variable {M : Mem n N V L}

theorem Final.reals (hF : Final o ask g limit hn M) {c : Nd N V L} (h : Done o g hn M c) : Real ask g c ∧ Reaches (g.next false) g.base c.root :=
  ⟨(hF.inv.real c h).1, hF.inv.reach _ (hF.inv.real c h).2⟩

/-- The edges of stored nodes lead to stored nodes. -/
theorem Final.far (hF : Final o ask g limit hn M) (hw : g.WF) {c : Nd N V L} (hc : St o g hn M c) {e : Edge N V L} (he : e ∈ M.out c) : St o g hn M (M.far e) := by
  obtain ⟨h1, h2, -⟩ := hF.inv.own c hc e he
  obtain ⟨h3, h4⟩ := hF.reals h2
  obtain ⟨-, h5, h6⟩ := gens_made hw h3 h4 h1
  by_cases ha : IsAnte e
  · exact (hF.inv.far e ha (hF.made _ h5 h6)).1
  · rcases gens_kind h1 with ⟨h, -⟩ | ⟨-, h⟩
    · exact absurd h ha
    · rw [hF.inv.still e ha]
      cases ht : e.tgt with
      | new => rw [ht] at h; cases h
      | old m =>
        rw [ht] at h6
        exact (hF.inv.mark m).1 (hF.all m h6)

theorem Final.kept (hF : Final o ask g limit hn M) (hw : g.WF) {c : Nd N V L} (h : Reaches (fun m => (ends M m).map Prod.snd) (.old g.base) c) : St o g hn M c := by
  induction h with
  | refl => exact (hF.inv.mark _).1 (hF.all _ .refl)
  | tail _ hb ih =>
    obtain ⟨f, hf, rfl⟩ := List.mem_map.1 hb
    obtain ⟨e, he, rfl⟩ := List.mem_map.1 hf
    exact hF.far hw ih he

theorem outgoing_perm (m : N) : ((gens ask g (.old m)).map fun e => (e.label, vertex g e.tgt)).Perm (outgoing g ask m) := by
  unfold gens outgoing
  rw [List.map_append]
  refine List.Perm.append ?_ ?_
  · unfold kept
    rw [List.map_map]
    have : ∀ (l : List (L × N)) (k : Nat), ((l.zipIdx k).filter fun e => !(ask m e.1).delete).map ((fun e : Edge N V L => (e.label, vertex g e.tgt)) ∘ oldEdge m) =
        (l.filter fun e => !(ask m e).delete).map fun e => (e.1, g.vertex e.2) := by
      intro l
      induction l with
      | nil => intro k; rfl
      | cons a l ih =>
        intro k
        rw [List.zipIdx_cons, List.filter_cons, List.filter_cons]
        split_ifs
        · rw [List.map_cons, List.map_cons, ih]; rfl
        · exact ih _
    rw [this]
  · unfold antes
    rw [List.map_flatMap]
    have h1 : ((g.out m).zipIdx.reverse.flatMap fun e => ((ask m e.1).reqs.zipIdx.map (anteEdge m e)).map fun e : Edge N V L => (e.label, vertex g e.tgt)).Perm
        ((g.out m).zipIdx.flatMap fun e => ((ask m e.1).reqs.zipIdx.map (anteEdge m e)).map fun e : Edge N V L => (e.label, vertex g e.tgt)) :=
      List.Perm.flatMap_right _ (List.reverse_perm _)
    refine h1.trans ?_
    have h2 : ∀ (rs : List (Req V L)) (e : (L × N) × Nat) (k : Nat), ((rs.zipIdx k).map (anteEdge m e)).map (fun e : Edge N V L => (e.label, vertex g e.tgt)) =
        rs.map fun q => (q.ante, q.vertex) := by
      intro rs e
      induction rs with
      | nil => intro k; rfl
      | cons r rs ih => intro k; rw [List.zipIdx_cons, List.map_cons, List.map_cons, List.map_cons, ih]; rfl
    have h3 : ∀ (l : List (L × N)) (k : Nat), ((l.zipIdx k).flatMap fun e => ((ask m e.1).reqs.zipIdx.map (anteEdge m e)).map fun e : Edge N V L => (e.label, vertex g e.tgt)) =
        l.flatMap fun e => (ask m e).reqs.map fun q => (q.ante, q.vertex) := by
      intro l
      induction l with
      | nil => intro k; rfl
      | cons a l ih => intro k; rw [List.zipIdx_cons, List.flatMap_cons, List.flatMap_cons, ih, h2]
    rw [h3]

/-- The result is what it should be. -/
theorem Final.expands (hF : Final o ask g limit hn M) (ho : o.Lawful) (hw : g.WF) {ms : List (Nd N V L)}
    (hz : Covers (fun m => (ends M m).map Prod.snd) (.old g.base) ms) : Expands o g ask .old (result g M ms) := by
  have hk : ∀ c ∈ ms, St o g hn M c := fun c hc => hF.kept hw ((hz.mem c).1 hc)
  refine ⟨fun a b h => by cases h; rfl, rfl, fun _ => rfl, fun _ => rfl, hz, ?_, fun c hc => ?_, fun c hc e he => ?_, fun c hc u l w hm hs => ?_, fun m hm _ hal => ?_,
    fun c hc hnew => ?_⟩
  · refine List.Pairwise.imp_of_mem ?_ hz.nodup
    intro a b h1 h2 hne hs
    exact hne (hF.inv.uniq ho (hk a h1) (hk b h2) hs)
  · have hs := hk c hc
    obtain ⟨h1, h2⟩ := hF.reals (.inl hs)
    cases c with
    | old m => exact .inl ⟨m, (hw.reach _).2 h2, rfl⟩
    | new m pos k r t =>
      obtain ⟨e, h3, -, h4⟩ := h1
      refine .inr ⟨⟨m, (hw.reach _).2 h2, e, List.mem_of_getElem? h3, r, List.mem_of_getElem? h4, rfl⟩, fun a ha h => ?_⟩
      have := hF.inv.uniq ho ((hF.inv.mark a).1 (hF.all a ((hw.reach _).1 ha))) hs h
      cases this
  · obtain ⟨f, hf, rfl⟩ := List.mem_map.1 he
    obtain ⟨h1, h2, h3⟩ := hF.inv.own c (hk c hc) f hf
    obtain ⟨h4, h5⟩ := hF.reals h2
    exact ⟨_, _, (gens_made hw h4 h5 h1).1, h3, hF.inv.farEqv ho f⟩
  · obtain ⟨s, h1, h2, rfl, e, he, rfl, rfl⟩ := made_gens hw hm
    obtain ⟨f, hf, h3, h4⟩ := hF.inv.cover c s (hk c hc) (hF.made s h1 h2) hs e he
    exact ⟨_, List.mem_map.2 ⟨f, hf, rfl⟩, h3, Eqv.trans ho (Eqv.symm ho h4) (hF.inv.farEqv ho f)⟩
  · have hout : M.out (.old m) = gens ask g (.old m) := by
      refine hF.inv.alone m (hF.all m ((hw.reach _).1 hm)) fun c hcn hcd heq => ?_
      obtain ⟨h1, h2⟩ := hF.reals hcd
      cases c with
      | old => cases hcn
      | new a pos k r t =>
        obtain ⟨e, h3, -, h4⟩ := h1
        exact hal _ ⟨a, (hw.reach _).2 h2, e, List.mem_of_getElem? h3, r, List.mem_of_getElem? h4, rfl⟩ heq
    refine ⟨_, outgoing_perm m, ?_⟩
    show List.Forall₂ _ ((M.out (.old m)).map _) _
    rw [hout, List.forall₂_map_left_iff, List.forall₂_map_right_iff, List.forall₂_same]
    exact fun e _ => ⟨rfl, hF.inv.farEqv ho e⟩
  · show ((M.out c).map _).Pairwise _
    rw [List.pairwise_map]
    cases c with
    | old m => exact absurd rfl (hnew m)
    | new m pos k r t => exact hF.inv.multi _ rfl (hk _ hc)

theorem Expands.wf {N' : Type} {old : N → N'} {r : Gr N' V L} (h : Expands o g ask old r) : r.WF := ⟨h.reach.nodup, h.reach.mem⟩

/-- Representatives of a list of nodes, none equal to another. -/
theorem crowd_le (hi : Inv o ask g hn M) (ho : o.Lawful) {i : Fin n} {vs : List V} (hp : vs.Pairwise fun a b => ¬ o.Same a b)
    (h : ∀ v ∈ vs, ∃ c, Done o g hn M c ∧ vertex g c = v ∧ ln o g hn c = i) : vs.length ≤ (M.tab i).length := by
  classical
  have h' : ∀ v ∈ vs, ∃ a ∈ M.tab i, o.Same v (vertex g a.node) := by
    intro v hv
    obtain ⟨c, h1, rfl, rfl⟩ := h v hv
    obtain ⟨d, ⟨a, h2, h3⟩, h4⟩ := hi.rep ho h1
    refine ⟨a, ?_, by rw [h3]; exact h4⟩
    rw [Eqv.ln ho h4]; exact h2
  rcases List.eq_nil_or_concat vs with rfl | ⟨l, v, rfl⟩
  · simp
  haveI : Nonempty (Entry N V L) := ⟨(h' v (by simp)).choose⟩
  generalize l.concat v = vs at *
  choose! f hf1 hf2 using h'
  have hnd : (vs.map f).Nodup := by
    refine List.Pairwise.map _ ?_ (List.Pairwise.imp_of_mem (S := fun a b => f a ≠ f b) ?_ hp)
    · exact fun a b h => h
    · intro a b ha hb hne heq
      refine hne (ho.vertex.trans _ _ _ (hf2 a ha) ?_)
      rw [heq]
      exact ho.vertex.symm _ _ (hf2 b hb)
  have hsub : vs.map f ⊆ M.tab i := by
    intro a ha
    obtain ⟨v, hv, rfl⟩ := List.mem_map.1 ha
    exact hf1 v hv
  have := (List.subperm_of_subset hnd hsub).length_le
  simpa using this

theorem lane_iff {v : V} {c : Nd N V L} (h : vertex g c = v) (i : Fin n) : ln o g hn c = i ↔ o.hash v % 1031 % n = i := by
  unfold ln Build.lane
  rw [h, Fin.ext_iff]

theorem Final.fits (hF : Final o ask g limit hn M) (ho : o.Lawful) (hw : g.WF) (hl : limit ≠ 0) (i : Fin n) : ¬ Crowded o g ask limit i := by
  rintro ⟨vs, h1, h2, h3⟩
  have := crowd_le (i := i) hF.inv ho h2 fun v hv => by
    obtain ⟨h4, h5⟩ := h3 v hv
    rcases h4 with ⟨m, hm, rfl⟩ | h4
    · exact ⟨.old m, hF.made _ trivial ((hw.reach _).1 hm), rfl, (lane_iff rfl i).2 h5⟩
    · obtain ⟨c, -, h6, h7, rfl⟩ := requested_real hw h4
      exact ⟨c, hF.made c h6 h7, rfl, (lane_iff rfl i).2 h5⟩
  have := hF.fit hl i
  omega

theorem crowded_of (hi : Inv o ask g hn M) (ho : o.Lawful) (hw : g.WF) {i : Fin n} (h : limit < (M.tab i).length) : Crowded o g ask limit i := by
  refine ⟨(M.tab i).map fun a => vertex g a.node, by simpa using h, ?_, fun v hv => ?_⟩
  · rw [List.pairwise_map]; exact hi.reps i
  · obtain ⟨a, ha, rfl⟩ := List.mem_map.1 hv
    have hl := hi.lane i a ha
    have hs : St o g hn M a.node := ⟨a, by rw [hl]; exact ha, rfl⟩
    obtain ⟨h1, h2⟩ := hi.st_real hs
    exact ⟨real_requested hw h1 h2, (lane_iff rfl i).1 hl⟩

theorem blamed_raised (hi : Inv o ask g hn M) (ho : o.Lawful) (hw : g.WF) {i : Fin n} {e : Int} (he : e ≠ 0) (h : Blamed o ask g limit M i e) :
    Raised o g ask e ∨ (e = Build.intOvf ∧ limit ≠ 0 ∧ Crowded o g ask limit i) := by
  rcases h with ⟨a, b, h1, h2, h3, h4, h5⟩ | ⟨m, h1, h2⟩ | ⟨h1, h2, h3⟩
  · exact .inl ⟨he, .inr ⟨_, _, real_requested hw h1 h3, real_requested hw h2 h4, h5⟩⟩
  · obtain ⟨f, h3, h4⟩ := failure_mem (ask := ask) (g := g) (m := m) (by rw [h2]; exact he)
    exact .inl ⟨he, .inl ⟨m, (hw.reach _).2 h1, f, h3, h4.trans h2⟩⟩
  · exact .inr ⟨h1, h2, crowded_of hi ho hw h3⟩

/-- A freed edge is redirected only if there's a clash. -/
theorem bad_clash (hi : Inv o ask g hn M) (ho : o.Lawful) (hw : g.WF) (h : M.bad = true) : Clash o g ask := by
  obtain ⟨e, w, ⟨m, pos, k, q, t, rfl⟩, ⟨f, h1, rfl, h2⟩, h3, ⟨e', hne, ⟨m', pos', k', q', t', rfl⟩, hs, ⟨f', h1', rfl, h2'⟩, h4, h5⟩, h6, h7⟩ := hi.bad h
  cases hs
  refine ⟨m, (hw.reach _).2 h3, w, (hw.reach _).2 h6, pos, pos', k, k', f, f', q, q', h1, h1', h2, h2', fun h => hne ?_, h4, h5, h7⟩
  cases h
  rw [h1] at h1'
  cases h1'
  rw [h2] at h2'
  cases h2'
  rfl

theorem sum_zero {l : List Nat} : l.sum = 0 ↔ ∀ a ∈ l, a = 0 := List.sum_eq_zero_iff

end

section
variable {n : Nat} {N V L : Type} [DecidableEq N] [DecidableEq V] [DecidableEq L]
variable {o : Orders V L} {ask : N → L × N → Answer V L} {g : Gr N V L} {addr : Nd N V L → Nat} {limit : Nat} {hn : 0 < n}

theorem runs_full (ho : o.Lawful) (ha : Function.Injective addr) (hw : g.WF) (hdi : Distinct o g) {y : Job n N V L} (hy : Runs o ask g addr limit hn y) :
    Full o ask g limit hn y 0 := by
  obtain ⟨s, h1, h2, rfl⟩ := hy
  exact full_reach ho ha hw hdi _ (Rover.done_bag hn h1 h2)

omit [DecidableEq N] [DecidableEq V] [DecidableEq L] in
theorem full_final {y : Job n N V L} (hf : Full o ask g limit hn y 0) (hs : status y = 0) : Final o ask g limit hn y.mem := by
  have hz := status_zero.1 hs
  have hall : ∀ m, Reaches (g.next false) g.base m → y.mem.mark m = true := by
    intro m h
    induction h with
    | refl => exact (hf.first hz).resolve_left (by simp)
    | tail _ hb ih =>
      obtain ⟨e, he, rfl⟩ := List.mem_map.1 hb
      exact (hf.next hz _ ih e he).resolve_right (by simp)
  refine ⟨hf.inv, hall, fun c hr hc => ?_, fun hl i => hf.fit hl i (hz i)⟩
  cases c with
  | old m => exact .inl ((hf.inv.mark m).1 (hall m hc))
  | new m pos k r t => exact (hf.made hz _ rfl hr (hall _ hc)).resolve_right (by simp)

omit [DecidableEq N] [DecidableEq V] [DecidableEq L] in
/-- The number of vertices created is zero only if none were. -/
theorem total_zero (ho : o.Lawful) (hw : g.WF) {y : Job n N V L} (hf : Full o ask g limit hn y 0) (hs : status y = 0) :
    total y ≠ 0 ↔ Creates o g ask := by
  have hF := full_final hf hs
  have : total y = 0 ↔ ∀ i, fresh y.mem i = 0 := by
    unfold total
    rw [sum_zero]
    simp [hf.changed]
  rw [ne_eq, this]
  constructor
  · intro h
    push Not at h
    obtain ⟨i, hi⟩ := h
    obtain ⟨a, ha, han⟩ := List.countP_pos_iff.1 (Nat.pos_of_ne_zero hi)
    have hst : St o g hn y.mem a.node := ⟨a, by rw [hf.inv.lane i a ha]; exact ha, rfl⟩
    obtain ⟨h1, h2⟩ := hf.inv.st_real hst
    generalize a.node = c at han hst h1 h2
    cases c with
    | old => cases han
    | new m pos k r t =>
      obtain ⟨e, h3, -, h4⟩ := h1
      refine ⟨_, ⟨m, (hw.reach _).2 h2, e, List.mem_of_getElem? h3, r, List.mem_of_getElem? h4, rfl⟩, fun a ha h => ?_⟩
      have := hf.inv.uniq ho ((hf.inv.mark a).1 (hF.all a ((hw.reach _).1 ha))) hst h
      cases this
  · rintro ⟨v, h1, h2⟩ h
    obtain ⟨c, -, h3, h4, rfl⟩ := requested_real hw h1
    obtain ⟨d, ⟨a, h5, rfl⟩, h6⟩ := hf.inv.rep ho (hF.made c h3 h4)
    have := List.countP_eq_zero.1 (h (ln o g hn a.node)) a h5
    obtain ⟨h7, h8⟩ := hf.inv.st_real (c := a.node) ⟨a, h5, rfl⟩
    cases hd : a.node with
    | old m =>
      rw [hd] at h6 h8
      exact h2 m ((hw.reach _).2 h8) (ho.vertex.symm _ _ h6)
    | new m pos k r t => rw [hd] at this; exact this rfl

theorem prunes_covers {M : Mem n N V L} {z : Trav.Job n (Nd N V L) Unit} (h : Prunes o g hn M z) (hk : z.killed = 0) :
    Covers (fun m => (ends M m).map Prod.snd) (.old g.base) (Dedup.kept z) := by
  obtain ⟨s, h1, h2, rfl⟩ := h
  exact Dedup.pruned h1 h2 hk

end

end Cru.Stretch
