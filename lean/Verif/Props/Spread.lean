import Verif.Proofs.SpreadTerm
import Verif.Props.Build
import Verif.Props.Merge
import Verif.Proofs.Demo

/-!
# C39 and C103-C106: spreading

`Spread b g a hn early late y` says that some execution of `cru_spread` on the graph `g` by `n` workers ends with the outcome `y`.  `Spreads`, `Called`,
`Raised`, `Crowded`, and `Fits` are in `Spec/Spread.lean`.
-/

namespace Cru.Spread

open Net Build

variable {n : Nat} {N V L : Type} {b : Builder V L} {g : Gr N V L} {hn : 0 < n} {a : Addr N V} {late : Bool}
variable [DecidableEq N] [DecidableEq V]

omit [DecidableEq N] [DecidableEq V] in
theorem limit_pos_iff (b : Builder V L) (n : Nat) : b.limit n ≠ 0 ↔ b.vertexLimit ≠ 0 := by
  unfold Builder.limit
  split_ifs with h1 h2
  · refine ⟨fun _ h => h1 (by rw [h]; simp), fun _ => h1⟩
  · simp [h2]
  · exact ⟨fun h => absurd rfl h, fun h => absurd h h2⟩

/-- **C39.** If the vertices of the given graph differ from one another and no kill switch is thrown before the connector is first called, then
`cru_spread` with a connector returns a graph as specified, or an error that's due to the connector, to the vertex limit, or to the kill switch. -/
theorem C39_spread (hb : b.Sane) (hsub : b.sub = false) (hw : g.WF) (hd : Distinct b g) {y : Outcome N V L} (h : Spread b g a hn false late y) :
    (∃ r, y = .ok r ∧ Spreads b g .old r ∧ (b.vertexLimit ≠ 0 → Fits b g .old r n (max 1 (b.vertexLimit / n)))) ∨
    ∃ e, y = .error e ∧ (Raised b g e ∨ e = intOvf ∧ b.vertexLimit ≠ 0 ∧ Crowded b g n (max 1 (b.vertexLimit / n)) ∨ e = intKil ∧ late = true) := by
  cases h with
  | stopped h => cases h
  | bad x hx hk h =>
    have hk0 : x.killed = 0 := by
      by_contra h0
      cases hk h0
    have := (clean_end hb hw hx hk0).twice
    rw [h] at this
    cases this
  | done x y r hx hk ht hy hl hr =>
    have hk0 : x.killed = 0 := by
      by_contra h0
      cases hk h0
    have hS := clean_sorted hb hw hd (clean_end hb hw hx hk0)
    obtain ⟨ns, hsound, -⟩ := ends_inv hb hsub hw hd hS hy
    have hno := not_sweepable hw hS hsound
    cases hr with
    | failed hs =>
      right
      refine ⟨_, rfl, ?_⟩
      obtain ⟨i, hi⟩ := status_mem hs
      rcases hsound.err i (by rw [hi]; exact hs) with h1 | ⟨h1, h2, h3⟩
      · exact .inl (hi ▸ h1)
      · rw [limit_eq n h2] at h3
        exact .inr (.inl ⟨hi ▸ h1, (limit_pos_iff b n).1 h2, h3⟩)
    | killed hs hkd hsw =>
      right
      refine ⟨_, rfl, .inr (.inr ⟨rfl, hl ?_⟩)⟩
      obtain ⟨z, h1, h2, rfl⟩ := hy
      rcases blame_reach hsub a (Rover.done_bag hn h1 h2) hkd with h | ⟨i, h⟩
      · exact h
      · exact absurd (status_zero.1 hs i) h
    | dangling hs hkd hdg =>
      have hkd : y.killed = 0 := hkd.resolve_right fun h => hno h.2
      obtain ⟨ns, hF⟩ := ends_final hb hsub hw hd hS hy hs hkd
      obtain ⟨t, -, e, he, h0⟩ := hdg
      exact absurd h0 (hF.undangling hsub hS a t e he)
    | ok hs hkd hdg =>
      have hkd : y.killed = 0 := hkd.resolve_right fun h => hno h.2
      obtain ⟨ns, hF⟩ := ends_final hb hsub hw hd hS hy hs hkd
      refine .inl ⟨_, rfl, hF.spreads hb hsub hw hd hS a, fun h0 => ?_⟩
      have h1 := (limit_pos_iff b n).2 h0
      rw [← limit_eq n h1]
      exact hF.fits hw hS a h1

/-- **C39.** If the connector raises no errors, there's no vertex limit, and no kill switch is thrown, then `cru_spread` always succeeds. -/
theorem C39_succeeds (hb : b.Sane) (hsub : b.sub = false) (hw : g.WF) (hd : Distinct b g) (he : ∀ v, Due b g v → (b.connect .whole v).1 = 0)
    (hl : b.vertexLimit = 0) {y : Outcome N V L} (h : Spread b g a hn false false y) : ∃ r, y = .ok r := by
  rcases C39_spread hb hsub hw hd h with ⟨r, h1, -⟩ | ⟨e, -, ⟨h1, v, h2, h3⟩ | h1 | h1⟩
  · exact ⟨r, h1⟩
  · exact absurd ((he v h2).symm.trans h3) (Ne.symm h1)
  · exact absurd hl h1.2.1
  · exact absurd h1.2 (by decide)

/-- **C39.** How often the connector is called on each vertex. -/
theorem C39_calls (hb : b.Sane) (hsub : b.sub = false) (hw : g.WF) (hd : Distinct b g) {x : Pre n N L} (hx : PreEnds b g hn x) (hk : x.killed = 0)
    {y : Job n N V L} (hy : Ends b g a x hn y) {r : Gr (Nd N V) V L} (hr : Returns b g a x y (.ok r)) : Called b g .old r (callsOf y) := by
  have hS := clean_sorted hb hw hd (clean_end hb hw hx hk)
  obtain ⟨ns, hsound, -⟩ := ends_inv hb hsub hw hd hS hy
  have hno := not_sweepable hw hS hsound
  cases hr with
  | ok hs hkd hdg =>
    obtain ⟨ns, hF⟩ := ends_final hb hsub hw hd hS hy hs (hkd.resolve_right fun h => hno h.2)
    exact hF.called hw hS a

section
variable {R R' : Type} {old : N → R} {old' : N → R'} {r : Gr R V L} {r' : Gr R' V L}

omit [DecidableEq N] [DecidableEq V] in
/-- **C39.** With a connector that makes equal edges for equal vertices, each vertex it can be called on is in the result. -/
theorem C39_complete (hb : b.Sane) (hres : b.Respects) (h : Spreads b g old r) {v : V} (hv : Due b g v) :
    ∃ t ∈ r.nodes, b.vEq v (r.vertex t) = true ∧ ∀ e ∈ (b.connect .whole v).2, ∃ f ∈ r.out t, b.eEq e.1 f.1 = true ∧ b.vEq e.2 (r.vertex f.2) = true := by
  have hinc : b.incEq .whole .whole = true := by unfold Builder.incEq; rfl
  have hdrawn : ∀ {es : List (L × V)} {fs : List (L × R)}, Drawn b r es fs → ∀ e ∈ es, ∃ f ∈ fs, f.1 = e.1 ∧ b.vEq e.2 (r.vertex f.2) = true := by
    intro es fs h
    induction h with
    | nil => intro e he; cases he
    | cons h1 _ ih =>
      intro e he
      rcases List.mem_cons.1 he with rfl | he
      · exact ⟨_, List.mem_cons_self, h1⟩
      · obtain ⟨f, h2, h3⟩ := ih e he
        exact ⟨f, List.mem_cons_of_mem _ h2, h3⟩
  have key : ∀ t ∈ r.nodes, (∀ m ∈ g.nodes, t = old m → g.out m = []) → ∀ e ∈ (b.connect .whole (r.vertex t)).2,
      ∃ f ∈ r.out t, b.eEq e.1 f.1 = true ∧ b.vEq e.2 (r.vertex f.2) = true := by
    intro t ht hl e he
    by_cases ho : ∃ m ∈ g.nodes, t = old m
    · obtain ⟨m, hm, rfl⟩ := ho
      rw [h.vertex] at he
      obtain ⟨f, h1, h2, h3⟩ := hdrawn (h.leaf m hm (hl m hm rfl)).2 e he
      exact ⟨f, h1, by rw [h2]; exact hb.e.refl _, h3⟩
    · push Not at ho
      obtain ⟨o, h1, h2, h3⟩ := (uniq_transversal hb _).covers e he
      obtain ⟨f, h4, h5, h6⟩ := hdrawn (h.novel t ht ho).2.2.2 o h1
      exact ⟨f, h4, by rw [h5]; exact hb.e.symm _ _ h2, hb.v.trans _ _ _ (hb.v.symm _ _ h3) h6⟩
  have lift : ∀ {v : V} {t : R}, t ∈ r.nodes → b.vEq v (r.vertex t) = true → (∀ m ∈ g.nodes, t = old m → g.out m = []) →
      ∀ e ∈ (b.connect .whole v).2, ∃ f ∈ r.out t, b.eEq e.1 f.1 = true ∧ b.vEq e.2 (r.vertex f.2) = true := by
    intro v t ht hvt hl e he
    obtain ⟨e', h1, h2, h3⟩ := hres .whole .whole v (r.vertex t) hinc hvt e he
    obtain ⟨f, h4, h5, h6⟩ := key t ht hl e' h1
    exact ⟨f, h4, hb.e.trans _ _ _ h2 h5, hb.v.trans _ _ _ h3 h6⟩
  suffices ∃ t ∈ r.nodes, b.vEq v (r.vertex t) = true ∧ ∀ m ∈ g.nodes, t = old m → g.out m = [] by
    obtain ⟨t, h1, h2, h3⟩ := this
    exact ⟨t, h1, h2, lift h1 h2 h3⟩
  induction hv with
  | @leaf m hm hl =>
    refine ⟨old m, h.kept m hm, by rw [h.vertex]; exact hb.v.refl _, ?_⟩
    intro m' _ he
    rw [← h.inj he]; exact hl
  | @novel u l v _ _ hmem hnov ih =>
    obtain ⟨t, h1, h2, h3⟩ := ih
    obtain ⟨f, h4, -, h5⟩ := lift h1 h2 h3 (l, v) hmem
    refine ⟨f.2, ?_, h5, ?_⟩
    · refine (h.wf.reach _).2 (((h.wf.reach t).1 h1).tail (by unfold Gr.next; rw [if_neg (by decide)]; exact List.mem_map.2 ⟨f, h4, rfl⟩))
    · intro m hm he
      rw [he, h.vertex, hnov m hm] at h5
      cases h5

omit [DecidableEq N] [DecidableEq V] in
/-- **C39.** Apart from repeated edges, the result depends neither on the schedule nor on the number of workers. -/
theorem C39_same_graph (hb : b.Sane) (hres : b.Respects) (h : Spreads b g old r) (h' : Spreads b g old' r') :
    ∀ t ∈ r.nodes, ∃ t' ∈ r'.nodes, b.vEq (r.vertex t) (r'.vertex t') = true ∧
      ∀ e ∈ r.out t, ∃ f ∈ r'.out t', b.eEq e.1 f.1 = true ∧ b.vEq (r.vertex e.2) (r'.vertex f.2) = true := by
  have hdrawn : ∀ {es : List (L × V)} {fs : List (L × R)}, Drawn b r es fs → ∀ f ∈ fs, ∃ e ∈ es, f.1 = e.1 ∧ b.vEq e.2 (r.vertex f.2) = true := by
    intro es fs h
    induction h with
    | nil => intro e he; cases he
    | cons h1 _ ih =>
      intro e he
      rcases List.mem_cons.1 he with rfl | he
      · exact ⟨_, List.mem_cons_self, h1⟩
      · obtain ⟨f, h2, h3⟩ := ih e he
        exact ⟨f, List.mem_cons_of_mem _ h2, h3⟩
  have goal : ∀ t ∈ r.nodes, ∀ v, Due b g v → r.vertex t = v → (∀ e ∈ r.out t, ∃ x ∈ (b.connect .whole v).2, e.1 = x.1 ∧ b.vEq x.2 (r.vertex e.2) = true) →
      ∃ t' ∈ r'.nodes, b.vEq (r.vertex t) (r'.vertex t') = true ∧
      ∀ e ∈ r.out t, ∃ f ∈ r'.out t', b.eEq e.1 f.1 = true ∧ b.vEq (r.vertex e.2) (r'.vertex f.2) = true := by
    rintro t ht _ hv rfl hx
    obtain ⟨t', h1, h2, h3⟩ := C39_complete hb hres h' hv
    refine ⟨t', h1, h2, fun e he => ?_⟩
    obtain ⟨x, h4, h5, h6⟩ := hx e he
    obtain ⟨f, h7, h8, h9⟩ := h3 x h4
    exact ⟨f, h7, by rw [h5]; exact h8, hb.v.trans _ _ _ (hb.v.symm _ _ h6) h9⟩
  intro t ht
  by_cases ho : ∃ m ∈ g.nodes, t = old m
  · obtain ⟨m, hm, rfl⟩ := ho
    by_cases hl : g.out m = []
    · exact goal _ ht _ (.leaf hm hl) (h.vertex m) (hdrawn (h.leaf m hm hl).2)
    · refine ⟨old' m, h'.kept m hm, by rw [h.vertex, h'.vertex]; exact hb.v.refl _, ?_⟩
      intro e he
      rw [h.same m hm hl, List.mem_map] at he
      obtain ⟨f, hf, rfl⟩ := he
      refine ⟨(f.1, old' f.2), by rw [h'.same m hm hl]; exact List.mem_map.2 ⟨f, hf, rfl⟩, hb.e.refl _, ?_⟩
      rw [h.vertex, h'.vertex]; exact hb.v.refl _
  · push Not at ho
    obtain ⟨-, h2, -, h4⟩ := h.novel t ht ho
    refine goal t ht _ h2 rfl fun e he => ?_
    obtain ⟨x, h5, h6⟩ := hdrawn h4 e he
    exact ⟨x, mem_uniq hb h5, h6⟩

omit [DecidableEq N] [DecidableEq V] in
/-- **C39.** If the connector creates no edges for the vertices that have none, the result is the given graph. -/
theorem C39_idle (hb : b.Sane) (h : Spreads b g old r) (hc : ∀ m ∈ g.nodes, g.out m = [] → (b.connect .whole (g.vertex m)).2 = []) :
    (∀ t, t ∈ r.nodes ↔ ∃ m ∈ g.nodes, t = old m) ∧ ∀ m ∈ g.nodes, r.out (old m) = (g.out m).map fun e => (e.1, old e.2) := by
  have hout : ∀ m ∈ g.nodes, r.out (old m) = (g.out m).map fun e => (e.1, old e.2) := by
    intro m hm
    by_cases hl : g.out m = []
    · have := (h.leaf m hm hl).2
      rw [hc m hm hl] at this
      cases hr : r.out (old m) with
      | nil => rw [hl]; rfl
      | cons e es => rw [hr] at this; cases this
    · exact h.same m hm hl
  refine ⟨fun t => ⟨fun ht => ?_, ?_⟩, hout⟩
  · by_contra hno
    push Not at hno
    have hdue := (h.novel t ht hno).2.1
    have hnov := (h.novel t ht hno).1
    have : ∀ v, Due b g v → ∃ m ∈ g.nodes, g.out m = [] ∧ v = g.vertex m := by
      intro v hv
      induction hv with
      | leaf hm hl => exact ⟨_, hm, hl, rfl⟩
      | novel _ _ hmem _ ih =>
        obtain ⟨m, hm, hl, rfl⟩ := ih
        rw [hc m hm hl] at hmem
        cases hmem
    obtain ⟨m, hm, -, he⟩ := this _ hdue
    have := hnov m hm
    rw [he, hb.v.refl] at this
    cases this
  · rintro ⟨m, hm, rfl⟩
    exact h.kept m hm

end

section
variable (hb : b.Sane) (hsub : b.sub = false) (hw : g.WF) (hd : Distinct b g)
  (hf : b.vertexLimit ≠ 0 ∨ ∃ cls : List V, ∀ v, Due b g v → ∃ c ∈ cls, b.vEq v c = true)
include hb hsub hw hd hf

theorem task_acc {x : Pre n N L} (hx : Sorted b g hn x) (a : Addr N V) : ∀ y, Bag.Reach (task b g a x hn) (.known g.base none) (start x) y →
    Acc (fun y x' => Bag.Handles (task b g a x hn) x' y) y := by
  rcases hf with h | ⟨cls, h⟩
  · exact spread_acc hb hsub hw hd hx a (n * b.limit n) fun ns s bag hs => bound_of_limit ((limit_pos_iff b n).2 h) hs
  · exact spread_acc hb hsub hw hd hx a cls.length fun ns s bag hs => bound_of_classes hb cls h hs

/-- **C39.** If there's a vertex limit or the vertices the connector can be called on are finitely many, up to equality, both tasks end. -/
theorem C39_terminates (a : Addr N V) (hn : 0 < n) : Merge.Ends (pre b g hn) g.base (preStart g) ∧
    ∀ x, PreEnds b g hn x → x.killed = 0 → Merge.Ends (task b g a x hn) (.known g.base none) (start x) :=
  ⟨fun f h0 hf' => no_infinite_run hn (pre_acc hb hw) f h0 hf',
    fun _ hx hk f h0 hf' => no_infinite_run hn (task_acc hb hsub hw hd hf (clean_sorted hb hw hd (clean_end hb hw hx hk)) a) f h0 hf'⟩

/-- **C39.** Under the same conditions, some execution ends, with or without the kill switch being thrown in the second task. -/
theorem C39_exists (a : Addr N V) (hn : 0 < n) (late : Bool) : ∃ x y r, PreEnds b g hn x ∧ x.killed = 0 ∧ Ends b g a x hn y ∧ y.asked = false ∧
    Returns b g a x y r ∧ Spread b g a hn false late r := by
  obtain ⟨s, h1, h2, h3⟩ := exists_done_inv (T := pre b g hn) (i₀ := g.base) (g₀ := preStart g) hn (pre_acc hb hw) (fun s => s.killed = 0 ∧ ∀ i, s.stop i = false)
    ⟨rfl, fun _ => rfl⟩ (by
      rintro i s m ⟨hk, hs⟩
      show (preHandle b g i s m).1.killed = 0 ∧ ∀ j, (preHandle b g i s m).1.stop j = false
      unfold preHandle
      rw [prePoll_clean s i hs hk]
      dsimp only
      split_ifs with h1 h2 h3
      · exact ⟨hk, hs⟩
      · exact ⟨hk, hs⟩
      · exact ⟨hk, hs⟩
      · exact absurd (hs i) h2)
  have hx : PreEnds b g hn s.g := ⟨s, h1, h2, rfl⟩
  have hS := clean_sorted hb hw hd (clean_end hb hw hx h3.1)
  obtain ⟨z, h4, h5, h6⟩ := exists_done_inv (T := task b g a s.g hn) (i₀ := .known g.base none) (g₀ := start s.g) hn (task_acc hb hsub hw hd hf hS a)
    (fun s => s.asked = false) rfl (by
      intro i y p hy
      exact (handle_asked g s.g a i y p).trans hy)
  have hy : Ends b g a s.g hn z.g := ⟨z, h4, h5, rfl⟩
  have hret : ∃ r, Returns b g a s.g z.g r := by
    by_cases hs : status z.g = 0
    · by_cases hk : z.g.killed = 0 ∨ 1 < n ∧ sweepable s.g z.g
      · by_cases hdg : ∃ t ∈ listed z.g, ∃ e ∈ edges b a s.g z.g t, e.2 = none
        · exact ⟨_, .dangling hs hk hdg⟩
        · push Not at hdg
          exact ⟨_, .ok hs hk hdg⟩
      · push Not at hk
        exact ⟨_, .killed hs hk.1 fun h => hk.2 h.1 h.2⟩
    · exact ⟨_, .failed hs⟩
  obtain ⟨r, hr⟩ := hret
  exact ⟨s.g, z.g, r, hx, h3.1, hy, h6, hr, .done s.g z.g r hx (fun h => absurd h3.1 h) (clean_end hb hw hx h3.1).twice hy (fun h => by rw [h6] at h; cases h) hr⟩

end

/-! ## C103 -/

/-- **C103.** If two vertices in the given graph are equal, whatever `cru_spread` returns is not a proper graph: some edge in it leads to a node that isn't
listed. -/
theorem C103_equal (hb : b.Sane) (hsub : b.sub = false) (hw : g.WF) {m m' : N} (hm : m ∈ g.nodes) (hm' : m' ∈ g.nodes) (hne : m ≠ m')
    (he : b.vEq (g.vertex m) (g.vertex m') = true) {r : Gr (Nd N V) V L} (h : Spread b g a hn false late (.ok r)) : ¬ r.WF := by
  intro hr
  generalize hy : Outcome.ok r = o at h
  cases h with
  | stopped h => cases h
  | bad => cases hy
  | done x y r' hx hk ht hye hl hret =>
    subst hy
    have hk0 : x.killed = 0 := by
      by_contra h0
      cases hk h0
    have hC := clean_end hb hw hx hk0
    cases hret with
    | ok hs hkd hdg =>
      have hout : ∀ c, ∀ e ∈ g.out c, .old e.2 ∈ (result b g a x y).next false (.old c) := by
        intro c e hec
        unfold Gr.next
        rw [if_neg (by decide), List.mem_map]
        refine ⟨(e.1, .old e.2), ?_, rfl⟩
        show _ ∈ (edges b a x y (.old c)).filterMap _
        rw [List.mem_filterMap]
        refine ⟨(e.1, some (.old e.2)), ?_, rfl⟩
        unfold edges
        dsimp only
        rw [hsub, if_neg (by decide), hC.out, List.mem_append]
        exact .inl (List.mem_map.2 ⟨e, hec, rfl⟩)
      have hall : ∀ c ∈ g.nodes, ∃ i, c ∈ x.tab i := by
        intro c hc
        have h1 : Relation.ReflTransGen (fun p q => q ∈ (result b g a x y).next false p) (Nd.old g.base) (.old c) := by
          have := (hw.reach c).1 hc
          clear hc
          induction this with
          | refl => exact .refl
          | tail _ h2 ih =>
            unfold Gr.next at h2
            rw [if_neg (by decide), List.mem_map] at h2
            obtain ⟨e, h3, rfl⟩ := h2
            exact ih.tail (hout _ e h3)
        have h2 : Nd.old c ∈ listed y := (hr.reach _).2 h1
        unfold listed at h2
        rw [List.mem_flatMap] at h2
        obtain ⟨i, -, h3⟩ := h2
        obtain ⟨z, h4, h5, rfl⟩ := hye
        have := queue_reach g x a (Rover.done_bag hn h4 h5) i c h3
        rw [hC.del, List.mem_reverse] at this
        exact ⟨i, this⟩
      obtain ⟨i, hi⟩ := hall m hm
      obtain ⟨j, hj⟩ := hall m' hm'
      have hij : i = j := by
        rw [← hC.home i m hi, ← hC.home j m' hj]
        exact spot_eq hb he
      subst hij
      haveI : Std.Symm fun c d => b.vEq (g.vertex c) (g.vertex d) = false := ⟨fun c d h => by
        rw [Bool.eq_false_iff] at h ⊢
        exact fun h' => h (hb.v.symm _ _ h')⟩
      rw [(hC.apart i).forall hi hj hne] at he
      cases he

/-! ## C104 -/

theorem lone_reach (hsub : b.sub = true) {x : Pre n N L} (hx : ∀ i, notices (V := V) x i = []) (h0 : x.out g.base = [])
    {y : Job n N V L × Multiset (Pkt N V L)} (h : Bag.Reach (task b g a x hn) (.known g.base none) (start x) y) :
    y.2 = {.known g.base none} ∧ (∀ i, y.1.err i = 0) ∧ y.1.made (.old g.base) = [] ∨
      y.2 = 0 ∧ ∀ i, y.1.err i = if i = lane hn (b.vHash (g.vertex g.base)) then ier 1607 else 0 := by
  induction h with
  | init => exact .inl ⟨rfl, fun _ => rfl, rfl⟩
  | step hr hs ih =>
    cases hs with
    | env e s m => exact ih
    | handle s p rest =>
      rcases ih with ⟨h1, h2, h3⟩ | ⟨h1, -⟩
      · right
        obtain ⟨rfl, rfl⟩ : p = .known g.base none ∧ rest = 0 := by
          have hp : p ∈ ({.known g.base none} : Multiset (Pkt N V L)) := by
            rw [← h1]; exact Multiset.mem_cons_self p rest
          rw [Multiset.mem_singleton] at hp
          subst hp
          refine ⟨rfl, ?_⟩
          have : (Pkt.known g.base none ::ₘ rest) = Pkt.known g.base none ::ₘ 0 := h1
          exact (Multiset.cons_inj_right _).1 this
        rw [produced_eq]
        set i := lane hn (b.vHash (g.vertex g.base)) with hi
        have hlane : lane hn (hashOf b g (.known g.base none : Pkt N V L)) = i := rfl
        rw [hlane]
        have hq : (begin x (poll s i) i).2 = ([] : List (Pkt N V L)) := by
          unfold begin
          split_ifs
          · rfl
          · exact hx i
        have he : ∀ j, (begin x (poll s i) i).1.err j = 0 := by
          intro j
          unfold begin
          split_ifs
          · rw [(Alike.poll s i).err]; exact h2 j
          · show (poll s i).err j = 0
            rw [(Alike.poll s i).err]; exact h2 j
        have hm : (begin x (poll s i) i).1.made (.old g.base) = [] := by
          unfold begin
          split_ifs
          · rw [(Alike.poll s i).made]; exact h3
          · show (poll s i).made _ = []
            rw [(Alike.poll s i).made]; exact h3
        have hbr : breakOut b g a x i (begin x (poll s i) i).1 g.base none = (discard (raise (begin x (poll s i) i).1 i (ier 1607)) i, []) := by
          unfold breakOut
          rw [if_neg (by push Not; exact ⟨h0, hm, he i⟩), hsub]
        constructor
        · show (((begin x (poll s i) i).2 ++ (breakOut b g a x i (begin x (poll s i) i).1 g.base none).2 : List (Pkt N V L)) : Multiset (Pkt N V L)) + 0 = 0
          rw [hq, hbr]
          rfl
        · intro j
          show (breakOut b g a x i (begin x (poll s i) i).1 g.base none).1.err j = _
          rw [hbr]
          show Function.update (begin x (poll s i) i).1.err i (if (begin x (poll s i) i).1.err i = 0 then ier 1607 else (begin x (poll s i) i).1.err i) j = _
          rw [if_pos (he i)]
          by_cases hj : j = i
          · rw [if_pos hj, hj, Function.update_self]
          · rw [if_neg hj, Function.update_of_ne hj, he j]
      · exact absurd h1 (by simp)

/-- **C104.** With a subconnector, `cru_spread` always fails with an internal error on a graph whose base vertex has no outgoing edges, that is, on a
graph of one vertex. -/
theorem C104_lone (hb : b.Sane) (hsub : b.sub = true) (hw : g.WF) (h0 : g.out g.base = []) {y : Outcome N V L} (h : Spread b g a hn false late y) :
    y = .error (-1607) := by
  cases h with
  | stopped h => cases h
  | bad x hx hk h =>
    have hk0 : x.killed = 0 := by
      by_contra h0
      cases hk h0
    have := (clean_end hb hw hx hk0).twice
    rw [h] at this
    cases this
  | done x y r hx hk ht hy hl hr =>
    have hk0 : x.killed = 0 := by
      by_contra h0
      cases hk h0
    have hC := clean_end hb hw hx hk0
    have hout : ∀ m ∈ g.nodes, g.out m = [] := by
      intro m hm
      rcases Relation.ReflTransGen.cases_head ((hw.reach m).1 hm) with h | ⟨c, hc, -⟩
      · rw [← h]; exact h0
      · unfold Gr.next at hc
        rw [if_neg (by decide), h0] at hc
        cases hc
    have hnot : ∀ i, notices (V := V) x i = [] := by
      intro i
      unfold notices
      rw [List.flatMap_eq_nil_iff]
      intro m hm
      rw [hC.del, List.mem_reverse] at hm
      rw [hC.out, hout m (hC.mem i m hm)]
      rfl
    obtain ⟨z, h1, h2, rfl⟩ := hy
    rcases lone_reach hsub hnot (by rw [hC.out]; exact h0) (Rover.done_bag hn h1 h2) with ⟨h3, -⟩ | ⟨-, h3⟩
    · exact absurd h3 (by simp)
    · have hs : status z.g = -1607 := by
        have hne : status z.g ≠ 0 := by
          intro h
          have := status_zero.1 h (lane hn (b.vHash (g.vertex g.base)))
          rw [h3, if_pos rfl] at this
          exact absurd this (by decide)
        obtain ⟨i, hi⟩ := status_mem hne
        rw [h3] at hi
        split_ifs at hi
        · exact hi.symm
        · exact absurd hi.symm hne
      cases hr with
      | failed => rw [hs]
      | killed h => rw [hs] at h; cases h
      | dangling h => rw [hs] at h; cases h
      | ok h => rw [hs] at h; cases h

/-! ## Examples -/

/-- Equality of numbers, and the given connector. -/
def plain (sub : Bool) (connect : Incident Bool → Nat → Int × List (Bool × Nat)) (limit : Nat := 0) : Builder Nat Bool where
  vEq v w := v == w
  vHash v := v
  eEq l m := l == m
  eHash l := if l then 1 else 0
  sub := sub
  connect := connect
  vertexLimit := limit

theorem plain_sane (sub : Bool) (connect : Incident Bool → Nat → Int × List (Bool × Nat)) (limit : Nat) : (plain sub connect limit).Sane := by
  refine ⟨⟨?_, ?_, ?_⟩, ?_, ⟨?_, ?_, ?_⟩, ?_⟩ <;> simp +contextual [plain, HashRespects]

/-- Addresses. -/
def addr : Addr Nat Nat where
  ofVertex v := v
  ofNode t := match t with
    | none => 0
    | some (.old m) => 2 * m + 1
    | some (.new v) => 2 * v + 2

/-- The state in which the first task ends when the workers take turns, with or without a kill requested at the start. -/
def pre₁ (b : Builder Nat Bool) (g : Gr Nat Nat Bool) (kill : Bool) (k : Nat) : State 1 Nat (Pre 1 Nat Bool) :=
  greedy (pre b g Nat.one_pos) g.base k (init { preStart g with killed := if kill then 1 else 0 })

/-- The state in which the second task ends. -/
def run₁ (b : Builder Nat Bool) (g : Gr Nat Nat Bool) (x : Pre 1 Nat Bool) (k : Nat) : State 1 (Pkt Nat Nat Bool) (Job 1 Nat Nat Bool) :=
  greedy (task b g addr x Nat.one_pos) (.known g.base none) k (init (start x))

theorem pre₁_ends (b : Builder Nat Bool) (g : Gr Nat Nat Bool) (kill : Bool) (k : Nat) (h : (pre₁ b g kill k).main = .done) :
    PreEnds b g Nat.one_pos (pre₁ b g kill k).g := by
  refine ⟨_, greedy_reach _ _ ?_, h, rfl⟩
  cases kill with
  | false => exact .init
  | true => exact .step (.env ()) trivial .init rfl

theorem run₁_ends (b : Builder Nat Bool) (g : Gr Nat Nat Bool) (x : Pre 1 Nat Bool) (k : Nat) (h : (run₁ b g x k).main = .done) :
    Ends b g addr x Nat.one_pos (run₁ b g x k).g := ⟨_, greedy_reach _ _ .init, h, rfl⟩

/-- A chain of `k + 1` vertices. -/
def chain (k : Nat) : Gr Nat Nat Bool where
  nodes := List.range (k + 1)
  base := 0
  vertex m := m
  out m := if m < k then [(true, m + 1)] else []
  inn _ := []

/-- A connector that never creates anything. -/
def idle : Builder Nat Bool := plain false fun _ _ => (0, [])

theorem chain_wf (k : Nat) : (chain k).WF := by
  refine wf_range (k := k + 1) rfl rfl (by omega) (fun m _ e he => ?_) (fun m hm h0 => ⟨m - 1, by omega, (true, m), ?_, rfl⟩)
  · simp only [chain] at he
    split_ifs at he
    · rw [List.mem_singleton] at he
      subst he
      dsimp only
      omega
    · cases he
  · simp only [chain]
    rw [if_pos (by omega), List.mem_singleton, Nat.sub_add_cancel (by omega)]

theorem chain_distinct (k : Nat) (b : Builder Nat Bool) (h : b.vEq = fun v w => v == w) : Distinct b (chain k) := by
  intro m _ m' _ he
  rw [h] at he
  simpa [chain] using he

/-- Vertices 0, 1, and 2 with edges from 0 to 1 and 2 and from 1 to 2. -/
def tri : Gr Nat Nat Bool where
  nodes := [0, 1, 2]
  base := 0
  vertex m := m
  out m := if m = 0 then [(true, 1), (false, 2)] else if m = 1 then [(true, 2)] else []
  inn _ := []

theorem tri_wf : tri.WF := wf_range (k := 3) rfl rfl (by decide) (by decide) (by decide)

/-- Edges back to 0 and repeated ones to 3 from 2, repeated ones from there to 4, and none from there.  It would connect 1 to 7. -/
def hook : Incident Bool → Nat → Int × List (Bool × Nat)
  | _, 1 => (0, [(true, 7)])
  | _, 2 => (0, [(true, 3), (false, 0), (true, 3)])
  | _, 3 => (0, [(true, 4), (true, 4)])
  | _, _ => (0, [])

theorem hook_due (limit : Nat) {v : Nat} (h : Due (plain false hook limit) tri v) : v = 2 ∨ v = 3 ∨ v = 4 := by
  induction h with
  | @leaf m hm hl =>
    have : m = 0 ∨ m = 1 ∨ m = 2 := by simpa [tri] using hm
    rcases this with rfl | rfl | rfl
    · cases hl
    · cases hl
    · exact .inl rfl
  | @novel u l v _ _ hmem hnov ih =>
    have h0 : v ≠ 0 := by rintro rfl; have := hnov 0 (by decide); simp [plain, tri] at this
    rcases ih with rfl | rfl | rfl <;> simp [plain, hook] at hmem <;> omega

theorem tri_distinct (connect : Incident Bool → Nat → Int × List (Bool × Nat)) (limit : Nat) : Distinct (plain false connect limit) tri := by
  intro m _ m' _ he
  simpa [plain, tri] using he

theorem hook_nodes (limit : Nat) {r : Gr (Nd Nat Nat) Nat Bool} (h : Spreads (plain false hook limit) tri .old r) :
    ∃ t u, t ∈ r.nodes ∧ u ∈ r.nodes ∧ r.vertex t = 3 ∧ r.vertex u = 4 ∧ (r.out t).length = 1 ∧ (∀ m ∈ tri.nodes, t ≠ .old m) ∧ ∀ m ∈ tri.nodes, u ≠ .old m := by
  have hold : ∀ t : Nd Nat Nat, 2 < r.vertex t → ∀ m ∈ tri.nodes, t ≠ .old m := by
    rintro t ht m hm rfl
    have : m = 0 ∨ m = 1 ∨ m = 2 := by simpa [tri] using hm
    rw [h.vertex] at ht
    rcases this with rfl | rfl | rfl <;> exact absurd ht (by decide)
  have hnode : ∀ t ∈ r.nodes, ∀ f ∈ r.out t, f.2 ∈ r.nodes := by
    intro t ht f hf
    exact (h.wf.reach _).2 (((h.wf.reach t).1 ht).tail (by unfold Gr.next; rw [if_neg (by decide)]; exact List.mem_map.2 ⟨f, hf, rfl⟩))
  have h2 := (h.leaf 2 (by decide) rfl).2
  have h2' : Drawn (plain false hook limit) r [(true, 3), (false, 0), (true, 3)] (r.out (.old 2)) := h2
  cases ho : r.out (.old 2) with
  | nil => rw [ho] at h2'; cases h2'
  | cons f fs =>
    rw [ho] at h2'
    cases h2' with
    | cons h3 _ =>
      have h4 : r.vertex f.2 = 3 := (beq_iff_eq.1 (show (3 == r.vertex f.2) = true from h3.2)).symm
      have h5 : f.2 ∈ r.nodes := hnode _ (h.kept 2 (by decide)) f (by rw [ho]; exact List.mem_cons_self)
      have h6 := hold f.2 (by rw [h4]; decide)
      have h7 := (h.novel f.2 h5 h6).2.2.2
      rw [h4] at h7
      have h7' : Drawn (plain false hook limit) r [(true, 4)] (r.out f.2) := h7
      cases ho' : r.out f.2 with
      | nil => rw [ho'] at h7'; cases h7'
      | cons f' fs' =>
        rw [ho'] at h7'
        have hlen := h7'.length_eq
        cases h7' with
        | cons h8 _ =>
          have h9 : r.vertex f'.2 = 4 := (beq_iff_eq.1 (show (4 == r.vertex f'.2) = true from h8.2)).symm
          refine ⟨f.2, f'.2, h5, hnode _ h5 f' (by rw [ho']; exact List.mem_cons_self), h4, h9, ?_, h6, hold f'.2 (by rw [h9]; decide)⟩
          rw [ho', ← hlen]; rfl

/-- The triangle is spread by any number of workers: the new edges of 2 are repeated, those of 3 aren't, and 1 has no new ones. -/
example (hn : 0 < n) : ∃ x y r, PreEnds (plain false hook) tri hn x ∧ Ends (plain false hook) tri addr x hn y ∧
    Spread (plain false hook) tri addr hn false false (.ok r) ∧ Spreads (plain false hook) tri .old r ∧
    (r.out (.old 2)).length = 3 ∧ r.out (.old 1) = [(true, .old 2)] ∧ (∃ t ∈ r.nodes, r.vertex t = 3 ∧ (r.out t).length = 1) ∧ callsOf y (.old 1) = 0 := by
  have hs := plain_sane false hook 0
  obtain ⟨x, y, z, h1, h2, h3, h4, h5, h6⟩ := C39_exists hs rfl tri_wf (tri_distinct hook 0) (.inr ⟨[2, 3, 4], fun v hv => ⟨v, by
    rcases hook_due 0 hv with rfl | rfl | rfl <;> decide, by simp [plain]⟩⟩) addr hn false
  obtain ⟨r, rfl⟩ := C39_succeeds hs rfl tri_wf (tri_distinct hook 0) (fun v hv => by rcases hook_due 0 hv with rfl | rfl | rfl <;> rfl) rfl h6
  rcases C39_spread hs rfl tri_wf (tri_distinct hook 0) h6 with ⟨r', h7, h8, -⟩ | ⟨e, h7, -⟩
  · cases h7
    have hc := C39_calls hs rfl tri_wf (tri_distinct hook 0) h1 h2 h3 h5
    refine ⟨x, y, r, h1, h3, h6, h8, ?_, h8.same 1 (by decide) (by decide), ?_, hc.same 1 (by decide) (by decide)⟩
    · exact (h8.leaf 2 (by decide) rfl).2.length_eq.symm
    · obtain ⟨t, u, h9, -, h10, -, h11, -⟩ := hook_nodes 0 h8
      exact ⟨t, h9, h10, h11⟩
  · cases h7

theorem plain_respects (sub : Bool) (f : Nat → Int × List (Bool × Nat)) (limit : Nat) : (plain sub (fun _ => f) limit).Respects := by
  intro inc inc' v v' _ h x hx
  have : v = v' := by simpa [plain] using h
  subst this
  exact ⟨x, hx, by simp [plain], by simp [plain]⟩

theorem tri_spread (f : Nat → Int × List (Bool × Nat)) (h0 : ∀ v, (f v).1 = 0) (cls : List Nat)
    (hc : ∀ v, Due (plain false fun _ => f) tri v → v ∈ cls) (hn : 0 < n) : ∃ r, Spread (plain false fun _ => f) tri addr hn false false (.ok r) ∧
      Spreads (plain false fun _ => f) tri .old r := by
  have hs := plain_sane false (fun _ => f) 0
  obtain ⟨x, y, z, -, -, -, -, -, h6⟩ := C39_exists hs rfl tri_wf (tri_distinct _ 0) (.inr ⟨cls, fun v hv => ⟨v, hc v hv, by simp [plain]⟩⟩) addr hn false
  obtain ⟨r, rfl⟩ := C39_succeeds hs rfl tri_wf (tri_distinct _ 0) (fun v _ => h0 v) rfl h6
  rcases C39_spread hs rfl tri_wf (tri_distinct _ 0) h6 with ⟨r', h7, h8, -⟩ | ⟨e, h7, -⟩
  · cases h7
    exact ⟨r, h6, h8⟩
  · cases h7

/-- One worker and three have results in which the vertices are the same. -/
example : ∃ r r', Spread (plain false fun _ => hook .whole) tri addr (show 0 < 1 by decide) false false (.ok r) ∧
    Spread (plain false fun _ => hook .whole) tri addr (show 0 < 3 by decide) false false (.ok r') ∧
    (∀ t ∈ r.nodes, ∃ t' ∈ r'.nodes, r.vertex t = r'.vertex t') ∧ ∃ t ∈ r.nodes, r.vertex t = 4 := by
  have hfine : ∀ v, (hook .whole v).1 = 0 := by
    intro v
    unfold hook
    split <;> rfl
  have hdue : ∀ v, Due (plain false fun _ => hook .whole) tri v → v ∈ [2, 3, 4] := by
    intro v h
    induction h with
    | @leaf m hm hl =>
      have : m = 0 ∨ m = 1 ∨ m = 2 := by simpa [tri] using hm
      rcases this with rfl | rfl | rfl
      · cases hl
      · cases hl
      · decide
    | @novel u l v _ _ hmem hnov ih =>
      have h0 : v ≠ 0 := by rintro rfl; have := hnov 0 (by decide); simp [plain, tri] at this
      have : u = 2 ∨ u = 3 ∨ u = 4 := by simpa using ih
      rcases this with rfl | rfl | rfl <;> simp [plain, hook] at hmem ⊢ <;> omega
  obtain ⟨r, h1, h2⟩ := tri_spread (n := 1) _ hfine [2, 3, 4] hdue (by decide)
  obtain ⟨r', h3, h4⟩ := tri_spread (n := 3) _ hfine [2, 3, 4] hdue (by decide)
  have hs := plain_sane false (fun _ => hook .whole) 0
  refine ⟨r, r', h1, h3, fun t ht => ?_, ?_⟩
  · obtain ⟨t', h5, h6, -⟩ := C39_same_graph hs (plain_respects false _ 0) h2 h4 t ht
    exact ⟨t', h5, by simpa [plain] using h6⟩
  · have hd2 : Due (plain false fun _ => hook .whole) tri 2 := .leaf (m := 2) (by decide) rfl
    have hd3 : Due (plain false fun _ => hook .whole) tri 3 := .novel (l := true) hd2 rfl (by decide) (by unfold Novel; decide)
    have hd4 : Due (plain false fun _ => hook .whole) tri 4 := .novel (l := true) hd3 rfl (by decide) (by unfold Novel; decide)
    obtain ⟨t, h5, h6, -⟩ := C39_complete hs (plain_respects false _ 0) h2 hd4
    exact ⟨t, h5, by have : 4 = r.vertex t := by simpa [plain] using h6
                     exact this.symm⟩

/-- Nothing happens to the triangle if the connector creates no edges. -/
example (hn : 0 < n) : ∃ r, Spread idle tri addr hn false false (.ok r) ∧ ∀ t, t ∈ r.nodes ↔ t = .old 0 ∨ t = .old 1 ∨ t = .old 2 := by
  obtain ⟨r, h1, h2⟩ := tri_spread (n := n) (fun _ => (0, [])) (fun _ => rfl) [2] (fun v hv => by
    cases hv with
    | @leaf m hm hl =>
      have : m = 0 ∨ m = 1 ∨ m = 2 := by simpa [tri] using hm
      rcases this with rfl | rfl | rfl
      · cases hl
      · cases hl
      · decide
    | novel _ _ hmem => cases hmem) hn
  refine ⟨r, h1, fun t => ?_⟩
  rw [(C39_idle (plain_sane _ _ 0) h2 fun _ _ _ => rfl).1 t]
  simp [tri]

/-- The connector can be called more than once on a vertex. -/
example (hn : 0 < n) : ∃ x y, PreEnds idle tri hn x ∧ Ends idle tri addr x hn y ∧ callsOf y (.old 2) = 2 := by
  have hs := plain_sane false (fun _ _ => (0, [])) 0
  have hdue : ∀ v, Due idle tri v → v = 2 := by
    intro v hv
    cases hv with
    | @leaf m hm hl =>
      have : m = 0 ∨ m = 1 ∨ m = 2 := by simpa [tri] using hm
      rcases this with rfl | rfl | rfl
      · cases hl
      · cases hl
      · rfl
    | novel _ _ hmem => cases hmem
  obtain ⟨x, y, z, h1, h2, h3, h4, h5, h6⟩ := C39_exists hs rfl tri_wf (tri_distinct _ 0) (.inr ⟨[2], fun v hv => ⟨2, by simp, by
    rw [hdue v hv]; rfl⟩⟩) addr hn false
  obtain ⟨r, rfl⟩ := C39_succeeds hs rfl tri_wf (tri_distinct _ 0) (fun v hv => rfl) rfl h6
  exact ⟨x, y, h1, h3, (C39_calls hs rfl tri_wf (tri_distinct _ 0) h1 h2 h3 h5).again 2 (by decide) rfl rfl⟩

/-- Errors raised by the connector are reported. -/
example (hn : 0 < n) {y : Outcome Nat Nat Bool} (h : Spread (plain false fun _ v => (if v = 2 then 7 else 0, [])) tri addr hn false false y) : y = .error 7 := by
  rcases C39_spread (plain_sane _ _ 0) rfl tri_wf (tri_distinct _ 0) h with ⟨r, h1, h2, -⟩ | ⟨e, rfl, ⟨h1, v, h2, h3⟩ | h1 | h1⟩
  · exact absurd (h2.leaf 2 (by decide) rfl).1 (by decide)
  · have : (if v = 2 then (7 : Int) else 0) = e := h3
    split_ifs at this
    · rw [← this]
    · exact absurd this.symm h1
  · exact absurd rfl h1.2.1
  · exact absurd h1.2 (by decide)

/-- A vertex limit of 1 is exceeded. -/
example {y : Outcome Nat Nat Bool} (h : Spread (plain false hook 1) tri addr Nat.one_pos false false y) : y = .error intOvf := by
  rcases C39_spread (plain_sane _ _ 1) rfl tri_wf (tri_distinct _ 1) h with ⟨r, -, h1, h2⟩ | ⟨e, rfl, ⟨h1, v, h2, h3⟩ | h1 | h1⟩
  · obtain ⟨t, u, ht, hu, h3, h4, -, h5, h6⟩ := hook_nodes 1 h1
    have := h2 (by decide) 0 [t, u] (by
      rw [List.nodup_cons]
      refine ⟨fun h => ?_, by simp⟩
      rw [List.mem_singleton] at h
      rw [h, h4] at h3
      cases h3) (fun w hw => by
      rcases List.mem_cons.1 hw with rfl | hw
      · exact ⟨ht, h5, Nat.mod_one _⟩
      · rw [List.mem_singleton] at hw
        subst hw
        exact ⟨hu, h6, Nat.mod_one _⟩)
    have hle : 2 ≤ 1 := this
    omega
  · rcases hook_due 1 h2 with rfl | rfl | rfl <;> exact absurd h3.symm h1
  · rw [h1.1]
  · exact absurd h1.2 (by decide)

/-- Two vertices of three are equal. -/
def twins : Gr Nat Nat Bool := { tri with vertex := fun m => if m = 2 then 1 else m }

theorem twins_wf : twins.WF := wf_range (k := 3) rfl rfl (by decide) (by decide) (by decide)

example : Spread idle twins addr Nat.one_pos false false (.ok (result idle twins addr (pre₁ idle twins false 200).g (run₁ idle twins (pre₁ idle twins false 200).g 200).g)) := by
  refine .done _ _ _ (pre₁_ends _ _ _ _ (by decide +kernel)) (fun h => absurd ?_ h) (by decide +kernel) (run₁_ends _ _ _ _ (by decide +kernel)) (fun h => ?_) (.ok (by decide +kernel) (.inl (by decide +kernel)) (by decide +kernel))
  · decide +kernel
  · revert h; decide +kernel

/-- Whatever is returned isn't a graph. -/
example (hn : 0 < n) {r : Gr (Nd Nat Nat) Nat Bool} (h : Spread idle twins addr hn false false (.ok r)) : ¬ r.WF :=
  C103_equal (plain_sane _ _ 0) rfl twins_wf (m := 1) (m' := 2) (by decide) (by decide) (by decide) (by decide) h

/-- A graph of one vertex can't be spread with a subconnector. -/
example (hn : 0 < n) {y : Outcome Nat Nat Bool} (h : Spread (plain true fun _ v => (0, if v < 3 then [(true, v + 1)] else [])) (chain 0) addr hn false true y) :
    y = .error (-1607) := C104_lone (plain_sane _ _ 0) rfl (chain_wf 0) rfl h

/-! ## C105 -/

/-- Along edges labelled `true`, vertex 1 is connected to 0, with the label `false`.  Along those, 0 is connected to 5. -/
def more : Incident Bool → Nat → Int × List (Bool × Nat)
  | .via true, 1 => (0, [(false, 0)])
  | .via false, 0 => (0, [(true, 5)])
  | _, _ => (0, [])

/-- **C105.** With a subconnector, a vertex that had outgoing edges can acquire more of them. -/
theorem C105_more_edges : (chain 1).WF ∧ (chain 1).out 0 = [(true, 1)] ∧
    ∃ r, Spread (plain true more) (chain 1) addr Nat.one_pos false false (.ok r) ∧ r.out (.old 0) = [(true, .old 1), (true, .new 5)] := by
  refine ⟨chain_wf 1, rfl, _, .done (pre₁ (plain true more) (chain 1) false 200).g (run₁ (plain true more) (chain 1) (pre₁ (plain true more) (chain 1) false 200).g 200).g _
    (pre₁_ends _ _ _ _ (by decide +kernel)) (fun h => absurd ?_ h) (by decide +kernel) (run₁_ends _ _ _ _ (by decide +kernel)) (fun h => ?_)
    (.ok (by decide +kernel) (.inl (by decide +kernel)) (by decide +kernel)), by decide +kernel⟩
  · decide +kernel
  · revert h; decide +kernel

/-- Two edges from 0 to 1 with different labels. -/
def pairs : Gr Nat Nat Bool where
  nodes := [0, 1]
  base := 0
  vertex m := m
  out m := if m = 0 then [(true, 1), (false, 1)] else []
  inn _ := []

theorem pairs_wf : pairs.WF := wf_range (k := 2) rfl rfl (by decide) (by decide) (by decide)

/-- Vertex 1 is connected to 5 or 6 depending on the label. -/
def fork : Incident Bool → Nat → Int × List (Bool × Nat)
  | .via true, 1 => (0, [(true, 5)])
  | .via false, 1 => (0, [(true, 6)])
  | _, _ => (0, [])

/-- **C105.** A subconnector isn't called for each incident label on a vertex without outgoing edges. -/
theorem C105_label_skipped : pairs.WF ∧ pairs.out 0 = [(true, 1), (false, 1)] ∧ pairs.out 1 = [] ∧
    ∃ x y r, PreEnds (plain true fork) pairs Nat.one_pos x ∧ x.killed = 0 ∧ Ends (plain true fork) pairs addr x Nat.one_pos y ∧
      Returns (plain true fork) pairs addr x y (.ok r) ∧ y.killed = 0 ∧
      (r.out (.old 1)).length = 1 ∧ callsOf y (.old 1) = 1 := by
  refine ⟨pairs_wf, rfl, rfl, (pre₁ (plain true fork) pairs false 200).g, (run₁ (plain true fork) pairs (pre₁ (plain true fork) pairs false 200).g 200).g, _,
    pre₁_ends _ _ _ _ (by decide +kernel), by decide +kernel, run₁_ends _ _ _ _ (by decide +kernel),
    .ok (by decide +kernel) (.inl (by decide +kernel)) (by decide +kernel), by decide +kernel, by decide +kernel, by decide +kernel⟩

/-! ## C106 -/

/-- **C106.** A kill switch thrown before the connector is called is forgotten: although the connector creates nothing, the graph is returned with edges
missing and vertices listed that aren't reachable. -/
theorem C106_kill_lost : (chain 40).WF ∧ Distinct idle (chain 40) ∧ (chain 40).out 35 = [(true, 36)] ∧
    ∃ r, Spread idle (chain 40) addr Nat.one_pos true false (.ok r) ∧ r.out (.old 35) = [] ∧ ¬ r.WF := by
  refine ⟨chain_wf 40, chain_distinct 40 _ rfl, rfl, _, .done (pre₁ idle (chain 40) true 1000).g (run₁ idle (chain 40) (pre₁ idle (chain 40) true 1000).g 1000).g _
    (pre₁_ends _ _ _ _ (by decide +kernel)) (fun _ => rfl) (by decide +kernel) (run₁_ends _ _ _ _ (by decide +kernel)) (fun h => ?_)
    (.ok (by decide +kernel) (.inl (by decide +kernel)) (by decide +kernel)), by decide +kernel, ?_⟩
  · revert h; decide +kernel
  · intro hr
    have h1 := (hr.reach (.old 40)).1 (by decide +kernel)
    rcases Relation.ReflTransGen.cases_tail h1 with h | ⟨c, hc, h⟩
    · cases h
    · have h2 := (hr.reach c).2 hc
      have h3 : ∀ c ∈ (result idle (chain 40) addr (pre₁ idle (chain 40) true 1000).g (run₁ idle (chain 40) (pre₁ idle (chain 40) true 1000).g 1000).g).nodes,
          Nd.old 40 ∉ (result idle (chain 40) addr (pre₁ idle (chain 40) true 1000).g (run₁ idle (chain 40) (pre₁ idle (chain 40) true 1000).g 1000).g).next false c := by
        decide +kernel
      exact h3 c h2 h

/-- A wheel: 0 is connected to `k` vertices and they to 0. -/
def wheel (k : Nat) : Gr Nat Nat Bool where
  nodes := List.range (k + 1)
  base := 0
  vertex m := m
  out m := if m = 0 then (List.range k).map fun j => (true, j + 1) else [(true, 0)]
  inn _ := []

theorem wheel_wf (k : Nat) : (wheel k).WF := by
  refine wf_range (k := k + 1) rfl rfl (by omega) (fun m _ e he => ?_) (fun m hm h0 => ⟨0, by omega, (true, m), ?_, rfl⟩)
  · simp only [wheel] at he
    split_ifs at he
    · obtain ⟨j, hj, rfl⟩ := List.mem_map.1 he
      exact Nat.succ_lt_succ (List.mem_range.1 hj)
    · rw [List.mem_singleton] at he
      subst he
      exact Nat.succ_pos _
  · simp only [wheel, if_true]
    exact List.mem_map.2 ⟨m - 1, List.mem_range.2 (by omega), by rw [Nat.sub_add_cancel (by omega)]⟩

/-- **C106.** It can also corrupt the list of nodes. -/
theorem C106_undefined : (wheel 40).WF ∧ Distinct idle (wheel 40) ∧ Spread idle (wheel 40) addr Nat.one_pos true false .undefined :=
  ⟨wheel_wf 40, fun m _ m' _ h => by simpa [idle, plain, wheel] using h, .bad (pre₁ idle (wheel 40) true 1000).g (pre₁_ends _ _ _ _ (by decide +kernel)) (fun _ => rfl) (by decide +kernel)⟩

end Cru.Spread
