import Verif.Proofs.FilterEnd
import Verif.Proofs.TravKill
import Verif.Proofs.Demo

/-! # Properties of filtering -/

namespace Cru.Filter

open Net

variable {n : Nat} {N V L : Type} [DecidableEq N] [DecidableEq L] {u : Filter V L} {g : Gr N V L} {addr : N → Nat} {hn : 0 < n}
  {initial : N} {R : Gr N V L}

/-! ## Parts of the proofs -/

omit [DecidableEq N] [DecidableEq L] in
theorem deletable_false {f : Filter V L} {m : N} (h : (deletable f g m (g.out m)).1 = false) :
    fails f g m = false ∧ ∀ e, ¬ ProbeError f g m e := by
  have h0 : (deletable f g m (g.out m)).2 = 0 := by
    unfold deletable at h ⊢
    split at h
    · rfl
    · dsimp only at h ⊢
      split at h
      · cases h
      · rename_i hc; rw [if_neg hc]; exact not_not.1 hc
  refine ⟨by rw [← deletable_ok h0]; exact h, fun e he => ?_⟩
  rw [deletable_error] at he
  exact he.1 (he.2.symm.trans h0)

omit [DecidableEq N] [DecidableEq L] in
theorem deletable_true {f : Filter V L} {m : N} (h : (deletable f g m (g.out m)).1 = true) (h0 : (deletable f g m (g.out m)).2 = 0) :
    fails f g m = true ∧ ∀ e, ¬ ProbeError f g m e := by
  refine ⟨by rw [← deletable_ok h0]; exact h, fun e he => ?_⟩
  rw [deletable_error] at he
  exact he.1 (he.2.symm.trans h0)

omit [DecidableEq N] [DecidableEq L] in
/-- A filter for which there's nothing to do. -/
theorem inferred_trivial (h : u.inferred.probe.isNone ∧ u.inferred.edge.isNone) : u.thinner = none ∧ u.probe = none ∧ u.edge = none := by
  unfold Filter.inferred at h
  rcases ht : u.thinner with _ | t
  · rw [ht] at h; simpa using h
  · rw [ht] at h; simp at h

omit [DecidableEq N] [DecidableEq L] in
theorem kept_all (hp : u.probe = none) (he : u.edge = none) (m : N) : kept u g m = g.out m := by
  unfold kept
  rw [List.filter_eq_self]
  intro e _
  simp [passes, fails, hp, he]

omit [DecidableEq N] [DecidableEq L] in
theorem whole (hw : g.WF) {ok : N → List (L × N) → Prop} (h : ∀ m, ok m (g.out m)) : IsFiltered g ok g :=
  ⟨rfl, fun _ _ => rfl, ⟨hw.nodup, fun m => hw.reach m⟩, fun m _ => h m⟩

omit [DecidableEq N] [DecidableEq L] in
/-- Edges to be retained, in terms of the sets of deleted nodes. -/
theorem pick_filter (hl : u.Lawful) (ht : u.thinner = none) {del : Fin n → List N} {m : N} [DecidablePred (Dead del addr hn)]
    (hd : ∀ e ∈ g.out m, Dead del addr hn e.2 ↔ fails u g e.2 = true) :
    ((pick u g m (g.out m)).1.filter fun e => decide (¬ Dead del addr hn e.2)).Perm (kept u g m) := by
  refine ((pick_kept hl ht).filter _).trans (.of_eq ?_)
  rw [List.filter_filter, kept]
  refine List.filter_congr fun e he => ?_
  have := hd e he
  rcases hf : fails u g e.2
  · rw [hf] at this
    simp only [Bool.false_eq_true, iff_false] at this
    simp [this]
  · rw [hf] at this
    simp only [iff_true] at this
    simp [this]

omit [DecidableEq N] [DecidableEq L] in
/-- If no error is raised by `pick`, then none is raised by the functions it applies. -/
theorem pick_zero {m : N} (h : (pick u.inferred g m (g.out m)).2.2 = 0) :
    (u.thinner = none → ∀ e, ¬ EdgeError u g m e) ∧ (∀ t, u.thinner = some t → ∀ e, ¬ ProbeError u g m e) := by
  refine ⟨fun ht => ?_, fun t ht => ?_⟩
  · rintro e ⟨h1, h2, h3⟩
    rw [inferred_none ht] at h
    simp only [pick, eligible, ht, Option.isNone_none, if_true, and_self, filtered, and_true] at h
    rw [ht] at h2
    simp only [Option.isSome_none, Bool.false_eq_true, or_false] at h2
    rw [if_neg (by rw [Option.isNone_iff_eq_none]; exact Option.isSome_iff_ne_none.1 h2)] at h
    exact h1 (h3.symm.trans h)
  · rintro e ⟨h1, p, hp, h2⟩
    have h2' : (p (g.vertex m) (view g (g.inn m)) (view g (g.out m))).2 = e := h2
    have hd : deletable u.inferred g m (g.out m) = (true, e) := by
      unfold deletable Filter.inferred
      simp only [ht, Option.isSome_some, if_true, hp, Option.getD_some]
      rw [if_pos (by rw [h2']; exact h1), h2']
    have he : eligible u.inferred g m (g.out m) = (true, e) := by
      unfold eligible
      rw [if_neg (by rw [inferred_thinner, ht]; simp), hd]
    unfold pick at h
    rw [he] at h
    simp only [true_and, if_neg h1] at h
    exact h1 h

omit [DecidableEq N] [DecidableEq L] in
theorem thinned_perm {lt : L × V → L × V → Bool} {m : N} {rs rs' : List (L × N)} (h : Thinned u lt g m rs) (hp : rs'.Perm rs) : Thinned u lt g m rs' := by
  unfold Thinned at *
  split at h
  · rename_i hc; rw [if_pos hc]; exact hp.trans h
  · rename_i hc
    rw [if_neg hc]
    refine ⟨fun h' => ?_, fun h' => ?_⟩
    · have := h.1 h'; subst this; exact hp.eq_nil
    · obtain ⟨e, h1, h2, h3, h4⟩ := h.2 h'
      exact ⟨e, h1, h2, hp.trans h3, h4⟩

theorem arcs_sub (hl : u.Lawful) {del : Fin n → List N} {x y : N} (h : y ∈ arcs u.inferred g false del addr hn x) : y ∈ g.next false x := by
  unfold arcs at h
  split at h
  · cases h
  · simp only [Bool.false_eq_true, if_false] at h
    obtain ⟨e, he, rfl⟩ := List.mem_map.1 h
    exact List.mem_map.2 ⟨e, (pick_perm (inferred_lawful hl) (g.out x)).mem_iff.1 (List.mem_append_left _ he), rfl⟩

/-- What happens if a graph is returned by a traversal that isn't backwards. -/
theorem runs_ok {f : Filter V L} {k₁ : Nat} (h : Runs f g false g.base addr hn k₁ 0 0 (.ok (some R)))
    (hb : f.thinner = none → fails f g g.base = false) :
    ∃ del, Marks f g false g.base addr hn k₁ del 0 ∧
      IsFiltered g (fun m rs => rs.Perm ((pick f g m (g.out m)).1.filter fun e => decide (¬ Dead del addr hn e.2))) R ∧
      ∀ m ∈ R.nodes, ¬ Dead del addr hn m ∧ (pick f g m (g.out m)).2.2 = 0 := by
  obtain ⟨del, e, hm, y, hy, hd, hk, h⟩ := h
  have hbase : ¬ Dead del addr hn g.base := by
    intro hdead
    rcases marks_del hm with ht | hdel
    · have := (marks_sound hm hdead).1
      rw [hb ht] at this; cases this
    · rw [Dead, hdel] at hdead; cases hdead
  split at h
  · cases h.2
  · rename_i he
    have he : e = 0 := not_not.1 he
    subst he
    split at h
    · cases h.2
    · rename_i hs
      obtain ⟨z, hz, hdz, hkz, ⟨h1, -⟩ | ⟨-, h2⟩⟩ := h
      · exact absurd rfl h1
      · simp only [Except.ok.injEq, Option.some.injEq] at h2
        subst h2
        exact ⟨del, hm, outcome (marks_del hm) hbase hy hd hk (not_not.1 hs) hz hdz hkz⟩

theorem IsFiltered.sub (hw : g.WF) {ok : N → List (L × N) → Prop} (h : IsFiltered g ok R) (hs : ∀ m ∈ R.nodes, ∀ e ∈ R.out m, e ∈ g.out m) :
    ∀ m ∈ R.nodes, m ∈ g.nodes := by
  intro m hm
  have := (h.nodes.mem m).1 hm
  clear hm
  induction this with
  | refl => exact (hw.reach _).2 .refl
  | tail ha hb ih =>
    obtain ⟨e, he, rfl⟩ := List.mem_map.1 hb
    rw [hw.reach] at ih ⊢
    exact ih.tail (List.mem_map.2 ⟨e, hs _ ((h.nodes.mem _).2 ha) e he, rfl⟩)

theorem IsFiltered.imp {ok ok' : N → List (L × N) → Prop} (h : IsFiltered g ok R) (hi : ∀ m ∈ R.nodes, ∀ rs, ok m rs → ok' m rs) : IsFiltered g ok' R :=
  ⟨h.base, h.vertex, h.nodes, fun m hm => hi m hm _ (h.out m hm)⟩

/-! ## C29 -/

/-- **C29.** If filtering without a thinner returns a graph, then the base vertex passes the vertex test, and the graph has exactly the
vertices that can be reached from it by way of the edges that pass to vertices that pass, with exactly those edges. -/
theorem C29_filtered (hw : g.WF) (hl : u.Lawful) (ht : u.thinner = none) (h : Filters u g false initial addr hn 0 0 0 (.ok (some R))) :
    fails u g g.base = false ∧ IsFiltered g (fun m rs => rs.Perm (kept u g m)) R := by
  unfold Filters at h
  dsimp only at h
  split at h
  · rename_i hc
    obtain ⟨-, hp, he⟩ := inferred_trivial hc
    obtain ⟨-, -, -, h⟩ := h
    simp only [Except.ok.injEq, Option.some.injEq] at h
    subst h
    exact ⟨by simp [fails, hp], whole hw fun m => by rw [kept_all hp he]⟩
  · rw [inferred_none ht] at h
    split at h
    · have := h.2.2.2
      split at this <;> cases this
    · rename_i hc
      have hc : (deletable u g g.base (g.out g.base)).1 = false := by simpa [ht] using hc
      have hb := (deletable_false hc).1
      simp only [Bool.false_eq_true, if_false] at h
      obtain ⟨del, hm, h1, h2⟩ := runs_ok h fun _ => hb
      have hsub := h1.sub hw fun m hm e he => (pick_perm hl (g.out m)).mem_iff.1 (List.mem_append_left _
        (List.mem_filter.1 ((h1.out m hm).mem_iff.1 he)).1)
      refine ⟨hb, h1.imp fun m hmR rs hrs => hrs.trans (pick_filter hl ht fun e he => ?_)⟩
      refine (marks_done ht hm ?_).1
      exact ((hw.reach m).1 (hsub m hmR)).tail (List.mem_map.2 ⟨e, he, rfl⟩)

/-- The vertices. -/
theorem C29_nodes (hw : g.WF) (hl : u.Lawful) (ht : u.thinner = none) (h : Filters u g false initial addr hn 0 0 0 (.ok (some R))) (m : N) :
    m ∈ R.nodes ↔ Reaches (fun m => (kept u g m).map Prod.snd) g.base m := by
  obtain ⟨-, h⟩ := C29_filtered hw hl ht h
  rw [h.nodes.mem m]
  constructor
  · intro hr
    induction hr with
    | refl => exact .refl
    | tail ha hb ih =>
      refine ih.tail ?_
      obtain ⟨e, he, rfl⟩ := List.mem_map.1 hb
      exact List.mem_map.2 ⟨e, (h.out _ ((h.nodes.mem _).2 ha)).mem_iff.1 he, rfl⟩
  · intro hr
    induction hr with
    | refl => exact .refl
    | tail ha hb ih =>
      refine ih.tail ?_
      obtain ⟨e, he, rfl⟩ := List.mem_map.1 hb
      exact List.mem_map.2 ⟨e, (h.out _ ((h.nodes.mem _).2 ih)).mem_iff.2 he, rfl⟩

/-- All of them pass, and are vertices of the given graph. -/
theorem C29_pass (hw : g.WF) (hl : u.Lawful) (ht : u.thinner = none) (h : Filters u g false initial addr hn 0 0 0 (.ok (some R))) {m : N} (hm : m ∈ R.nodes) :
    fails u g m = false ∧ m ∈ g.nodes ∧ R.vertex m = g.vertex m := by
  obtain ⟨hb, h'⟩ := C29_filtered hw hl ht h
  refine ⟨?_, ?_, h'.vertex m hm⟩
  · rcases Relation.ReflTransGen.cases_tail ((C29_nodes hw hl ht h m).1 hm) with rfl | ⟨c, -, hc⟩
    · exact hb
    · obtain ⟨e, he, rfl⟩ := List.mem_map.1 hc
      have := (List.mem_filter.1 he).2
      simp only [Bool.and_eq_true, Bool.not_eq_true'] at this
      exact this.2
  · refine h'.sub hw (fun m hm e he => ?_) m hm
    exact (List.mem_filter.1 ((h'.out m hm).mem_iff.1 he)).1

/-- The result is well formed. -/
theorem C29_wf (hw : g.WF) (hl : u.Lawful) (ht : u.thinner = none) (h : Filters u g false initial addr hn 0 0 0 (.ok (some R))) : R.WF := by
  obtain ⟨-, h⟩ := C29_filtered hw hl ht h
  refine ⟨h.nodes.nodup, fun m => ?_⟩
  rw [h.nodes.mem, h.base]
  rfl

/-- The whole graph is reclaimed if and only if the base vertex fails. -/
theorem C29_reclaimed (hp : ∀ e, ¬ ProbeError u g g.base e) (ht : u.thinner = none) {k₁ k₂ k₃ : Nat} {r : Except Int (Option (Gr N V L))}
    (h : Filters u g false initial addr hn k₁ k₂ k₃ r) : r = .ok none ↔ fails u g g.base = true := by
  unfold Filters at h
  dsimp only at h
  split at h
  · rename_i hc
    obtain ⟨-, hp, he⟩ := inferred_trivial hc
    obtain ⟨-, -, -, rfl⟩ := h
    simp [fails, hp]
  · rw [inferred_none ht] at h
    split at h
    · rename_i hc
      have h0 : (deletable u g g.base (g.out g.base)).2 = 0 := by
        by_contra h0
        exact hp _ (deletable_error.2 ⟨h0, rfl⟩)
      rw [if_neg (not_not.2 h0)] at h
      simp [h.2.2.2, (deletable_true hc.2 h0).1]
    · rename_i hc
      have hc : (deletable u g g.base (g.out g.base)).1 = false := by simpa [ht] using hc
      have hb := (deletable_false hc).1
      rw [hb]
      simp only [Bool.false_eq_true, iff_false]
      rintro rfl
      obtain ⟨del, e, hm, y, hy, hd, hk, h⟩ := h
      split at h
      · cases h.2
      · split at h
        · cases h.2
        · obtain ⟨z, -, -, -, ⟨-, -, h⟩ | ⟨-, h⟩⟩ := h <;> cases h

/-- Any error returned has been raised by user code, unless it's due to a kill request while the graph is pruned in the end. -/
theorem C29_error (hw : g.WF) (hl : u.Lawful) {k₁ k₂ k₃ : Nat} {e : Int} (h : Filters u g false initial addr hn k₁ k₂ k₃ (.error e)) :
    (∃ m ∈ g.nodes, ProbeError u g m e ∨ EdgeError u g m e) ∨ k₃ ≠ 0 ∧ e = Build.intKil := by
  have hbn : g.base ∈ g.nodes := (hw.reach _).2 .refl
  unfold Filters at h
  dsimp only at h
  split at h
  · cases h.2.2.2
  · split at h
    · rename_i hc
      have ht : u.thinner = none := by rw [← inferred_thinner]; exact Option.isNone_iff_eq_none.1 hc.1
      rw [inferred_none ht] at h
      have := h.2.2.2
      split at this
      · rename_i h0
        simp only [Except.error.injEq] at this
        exact .inl ⟨_, hbn, .inl (deletable_error.2 ⟨this ▸ h0, this.symm⟩)⟩
      · cases this
    · simp only [Bool.false_eq_true, if_false] at h
      obtain ⟨del, e', hm, y, hy, hd, hk, h⟩ := h
      split at h
      · rename_i he
        have := h.2
        simp only [Except.error.injEq] at this
        subst this
        obtain ⟨m, h1, h2⟩ := marks_error hm he
        have ht : u.thinner = none := by
          rcases ht : u.thinner with _ | t
          · rfl
          · exfalso
            unfold Marks at hm
            rw [inferred_thinner, ht] at hm
            simp only [Option.isSome_some, true_or, if_true] at hm
            exact he hm.2.2
        rw [inferred_none ht] at h2
        exact .inl ⟨m, (hw.reach m).2 h1, .inl h2⟩
      · split at h
        · rename_i hs
          have := h.2
          simp only [Except.error.injEq] at this
          subst this
          obtain ⟨i, hi⟩ := status_mem hs
          obtain ⟨m, h1, h2, h3⟩ := (fwd_reach (marks_del hm) _ (reach_bag hn hy)).2.raised i (hi ▸ hs)
          refine .inl ⟨m, ?_, pick_error hs (by rw [hi]; exact h3.symm)⟩
          have hr := rover_reach (marks_del hm) (Rover.done_bag hn hy hd)
          have := hr.reach i m h1
          refine (hw.reach m).2 (Relation.ReflTransGen.mono (p := fun x y => y ∈ g.next false x) (fun x y hxy => ?_) _ _ this)
          exact arcs_sub hl hxy
        · obtain ⟨z, -, -, -, ⟨h1, -, h2⟩ | ⟨-, h⟩⟩ := h
          · simp only [Except.error.injEq] at h2
            exact .inr ⟨h1, h2⟩
          · cases h

/-- If a graph is returned, then no vertex test has raised an error, and no edge test has on any vertex in it. -/
theorem C29_error_reported (hw : g.WF) (ht : u.thinner = none) (h : Filters u g false initial addr hn 0 0 0 (.ok (some R))) (e : Int) :
    (∀ m ∈ g.nodes, ¬ ProbeError u g m e) ∧ ∀ m ∈ R.nodes, ¬ EdgeError u g m e := by
  unfold Filters at h
  dsimp only at h
  split at h
  · rename_i hc
    obtain ⟨-, hp, he⟩ := inferred_trivial hc
    refine ⟨?_, ?_⟩
    · rintro m - ⟨-, p, h', -⟩
      rw [hp] at h'; cases h'
    · rintro m - ⟨-, h', -⟩
      rw [he, ht] at h'; simp at h'
  · rw [inferred_none ht] at h
    split at h
    · have := h.2.2.2
      split at this <;> cases this
    · rename_i hc
      have hc : (deletable u g g.base (g.out g.base)).1 = false := by simpa [ht] using hc
      simp only [Bool.false_eq_true, if_false] at h
      obtain ⟨del, hm, h1, h2⟩ := runs_ok h fun _ => (deletable_false hc).1
      refine ⟨fun m hmn => (marks_done ht hm ((hw.reach m).1 hmn)).2 e, fun m hmR => ?_⟩
      have := (h2 m hmR).2
      rw [← inferred_none ht] at this
      exact (pick_zero this).1 ht e

/-- If no function raises an error and nothing is killed, filtering without a thinner does what it should. -/
theorem C29_correct (hw : g.WF) (hl : u.Lawful) (ht : u.thinner = none) (hp : ∀ m ∈ g.nodes, ∀ e, ¬ ProbeError u g m e)
    (he : ∀ m ∈ g.nodes, ∀ e, ¬ EdgeError u g m e) {r : Except Int (Option (Gr N V L))} (h : Filters u g false initial addr hn 0 0 0 r) :
    if fails u g g.base then r = .ok none else ∃ R, r = .ok (some R) ∧ IsFiltered g (fun m rs => rs.Perm (kept u g m)) R := by
  have hb := C29_reclaimed (hp _ ((hw.reach _).2 .refl)) ht h
  rcases r with e | _ | R
  · rcases C29_error hw hl h with ⟨m, hm, h' | h'⟩ | ⟨h', -⟩
    · exact absurd h' (hp m hm e)
    · exact absurd h' (he m hm e)
    · exact absurd rfl h'
  · rw [if_pos (hb.1 rfl)]
  · obtain ⟨h1, h2⟩ := C29_filtered hw hl ht h
    rw [if_neg (by rw [h1]; simp)]
    exact ⟨R, rfl, h2⟩

omit [DecidableEq L] in
/-- All phases end. -/
theorem C29_terminates [DecidableEq L] (hw : g.WF) (hl : u.Lawful) (addr : N → Nat) (hn : 0 < n) :
    Merge.Ends (marking u.inferred g false addr hn) g.base (Trav.start fun _ => []) ∧
    ∀ k del e, Marks u.inferred g false g.base addr hn k del e →
      Merge.Ends (cutting u.inferred g false del addr hn) (.visit g.base none) (Trav.start (mem g)) ∧
      ∀ y, Net.Reach (cutting u.inferred g false del addr hn) (.visit g.base none) (Trav.start (mem g)) y → y.main = .done →
        Merge.Ends (pruning y.g.mem.out addr hn) g.base (Trav.start ()) := by
  refine ⟨fun f h0 hf => (Trav.ends _ _ hn _ (ms := g.nodes) fun m h => (hw.reach m).2 h).1 f h0 hf, fun k del e hm => ⟨fun f h0 hf => ?_, fun y hy hd f h0 hf => ?_⟩⟩
  · exact no_infinite_run hn (cutting_acc (inferred_lawful hl) (marks_del hm) (ms := g.nodes) fun m h => (hw.reach m).2 h) f h0 hf
  · exact (Trav.ends _ _ hn _ (ms := g.nodes) fun m h => reachable hw (inferred_lawful hl) (reach_bag hn hy) m h).1 f h0 hf

/-- There's an execution that ends without being killed. -/
theorem C29_exists (hw : g.WF) (hl : u.Lawful) (addr : N → Nat) (hn : 0 < n) (initial : N) : ∃ r, Filters u g false initial addr hn 0 0 0 r := by
  unfold Filters
  dsimp only
  split
  · exact ⟨_, rfl, rfl, rfl, rfl⟩
  · split
    · exact ⟨_, rfl, rfl, rfl, rfl⟩
    · simp only [Bool.false_eq_true, if_false]
      obtain ⟨del, e, hm⟩ := marks_exists u.inferred g false (a := g.base) addr hn (ms := g.nodes) fun m h => (hw.reach m).2 h
      obtain ⟨y, hy, hd, hk⟩ := exists_cutting (g := g) (inferred_lawful hl) (marks_del hm) addr hn (ms := g.nodes) fun m h => (hw.reach m).2 h
      obtain ⟨z, hz, hdz, hkz⟩ := exists_pruning hw (inferred_lawful hl) (reach_bag hn hy)
      unfold Runs
      by_cases he : e ≠ 0
      · exact ⟨_, del, e, hm, y, hy, hd, hk, by rw [if_pos he]; exact ⟨rfl, rfl⟩⟩
      · by_cases hs : status y.g ≠ 0
        · exact ⟨_, del, e, hm, y, hy, hd, hk, by rw [if_neg he, if_pos hs]; exact ⟨rfl, rfl⟩⟩
        · exact ⟨_, del, e, hm, y, hy, hd, hk, by rw [if_neg he, if_neg hs]; exact ⟨z, hz, hdz, hkz, .inr ⟨.inl rfl, rfl⟩⟩⟩

/-! ## C89 -/

/-- **C89.** If filtering with a thinner returns a graph, it's made of the vertices that can still be reached if the edges of every vertex that
fails the vertex test, or of every vertex without one, are thinned to the first class that passes. -/
theorem C89_thinned (hl : u.Lawful) {lt : L × V → L × V → Bool} (ht : u.thinner = some lt)
    (h : Filters u g false initial addr hn 0 0 0 (.ok (some R))) : IsFiltered g (Thinned u lt g) R := by
  unfold Filters at h
  dsimp only at h
  split at h
  · rename_i hc
    rw [(inferred_trivial hc).1] at ht; cases ht
  · rw [if_neg (by rw [inferred_thinner, ht]; simp)] at h
    simp only [Bool.false_eq_true, if_false] at h
    obtain ⟨del, hm, h1, h2⟩ := runs_ok h fun h => by rw [inferred_thinner, ht] at h; cases h
    have hdel : ∀ i, del i = [] := by
      rcases marks_del hm with h | h
      · rw [inferred_thinner, ht] at h; cases h
      · exact h
    refine h1.imp fun m hmR rs hrs => thinned_perm (pick_thinned hl ht ((pick_zero (h2 m hmR).2).2 _ ht)) (hrs.trans (.of_eq ?_))
    rw [List.filter_eq_self]
    intro e _
    simp [Dead, hdel]

/-- The vertices left are among those of the given graph, and their edges are among theirs. -/
theorem C89_sub (hw : g.WF) (hl : u.Lawful) {lt : L × V → L × V → Bool} (ht : u.thinner = some lt)
    (h : Filters u g false initial addr hn 0 0 0 (.ok (some R))) : R.WF ∧ (∀ m ∈ R.nodes, m ∈ g.nodes ∧ ∀ e ∈ R.out m, e ∈ g.out m) := by
  have h1 := C89_thinned hl ht h
  have h2 : ∀ m ∈ R.nodes, ∀ e ∈ R.out m, e ∈ g.out m := by
    intro m hm e he
    have := h1.out m hm
    unfold Thinned at this
    split at this
    · exact this.mem_iff.1 he
    · by_cases hex : ∃ e ∈ g.out m, passes u g m e = true
      · obtain ⟨d, hd, -, hp, -⟩ := this.2 hex
        have := hp.mem_iff.1 he
        unfold classmates at this
        split at this
        · rw [List.mem_singleton.1 this]; exact hd
        · exact (List.mem_filter.1 this).1
      · push Not at hex
        rw [this.1 fun e he => by simpa using hex e he] at he
        cases he
  refine ⟨⟨h1.nodes.nodup, fun m => ?_⟩, fun m hm => ⟨h1.sub hw h2 m hm, h2 m hm⟩⟩
  rw [h1.nodes.mem, h1.base]
  rfl

/-- If no function raises an error and nothing is killed, filtering with a thinner does what it should. -/
theorem C89_correct (hw : g.WF) (hl : u.Lawful) {lt : L × V → L × V → Bool} (ht : u.thinner = some lt)
    (hp : ∀ m ∈ g.nodes, ∀ e, ¬ ProbeError u g m e) (he : ∀ m ∈ g.nodes, ∀ e, ¬ EdgeError u g m e) {r : Except Int (Option (Gr N V L))}
    (h : Filters u g false initial addr hn 0 0 0 r) : ∃ R, r = .ok (some R) ∧ IsFiltered g (Thinned u lt g) R := by
  rcases r with e | _ | R
  · rcases C29_error hw hl h with ⟨m, hm, h' | h'⟩ | ⟨h', -⟩
    · exact absurd h' (hp m hm e)
    · exact absurd h' (he m hm e)
    · exact absurd rfl h'
  · exfalso
    unfold Filters at h
    dsimp only at h
    split at h
    · cases h.2.2.2
    · rw [if_neg (by rw [inferred_thinner, ht]; simp)] at h
      obtain ⟨del, e, hm, y, hy, hd, hk, h⟩ := h
      split at h
      · cases h.2
      · split at h
        · cases h.2
        · obtain ⟨z, -, -, -, ⟨-, -, h⟩ | ⟨-, h⟩⟩ := h <;> cases h
  · exact ⟨R, rfl, C89_thinned hl ht h⟩

/-! ## C90 -/

/-- **C90.** A zone that isn't backwards is ignored: a vertex that fails is gone, and edges that don't pass are, even if neither can be
reached from the initial vertex of the zone. -/
theorem C90_ignored (hw : g.WF) (hl : u.Lawful) (ht : u.thinner = none) (h : Filters u g false initial addr hn 0 0 0 (.ok (some R))) :
    (∀ m, ¬ Reaches (g.next false) initial m → fails u g m = true → m ∉ R.nodes) ∧
    ∀ m ∈ R.nodes, ¬ Reaches (g.next false) initial m → ∀ e ∈ R.out m, passes u g m e = true := by
  refine ⟨fun m _ hf hm => ?_, fun m hm _ e he => ?_⟩
  · rw [(C29_pass hw hl ht h hm).1] at hf; cases hf
  · have := (List.mem_filter.1 (((C29_filtered hw hl ht h).2.out m hm).mem_iff.1 he)).2
    simp only [Bool.and_eq_true] at this
    exact this.1

/-! ## C91 -/

omit [DecidableEq L] in
theorem arcs_back {f : Filter V L} {del : Fin n → List N} (hdel : ∀ i, del i = []) : arcs f g true del addr hn = g.next true := by
  funext m
  unfold arcs
  rw [if_neg (by rw [Dead, hdel]; simp)]
  rfl

theorem runs_back {f : Filter V L} (hd : f.thinner.isSome = true ∨ f.probe.isNone = true) (h : Runs f g true initial addr hn 0 0 0 (.ok (some R))) :
    IsFiltered g (fun m rs => (Reaches (g.next true) initial m → rs = (pick f g m (g.out m)).1 ∧ (pick f g m (g.out m)).2.2 = 0) ∧
      (¬ Reaches (g.next true) initial m → rs = g.out m)) R := by
  obtain ⟨del, e, hm, y, hy, hdy, hk, h⟩ := h
  have hdel : ∀ i, del i = [] := by
    unfold Marks at hm
    rw [if_pos hd] at hm
    intro i; rw [hm.2.1]
  rw [← arcs_back (f := f) (addr := addr) (hn := hn) hdel]
  split at h
  · cases h.2
  · split at h
    · cases h.2
    · rename_i hs
      obtain ⟨z, hz, hdz, hkz, ⟨h1, -⟩ | ⟨-, h2⟩⟩ := h
      · exact absurd rfl h1
      · simp only [Except.ok.injEq, Option.some.injEq] at h2
        subst h2
        exact outcome_plain hdel hy hdy hk (not_not.1 hs) hz hdz hkz

/-- **C91.** With a backward zone and no vertex test, the edges of vertices from which the initial vertex can be reached are filtered, the others
keep theirs, and the graph returned is made of what can still be reached. -/
theorem C91_edges (hw : g.WF) (hl : u.Lawful) (ht : u.thinner = none) (hp : u.probe = none) (h : Filters u g true initial addr hn 0 0 0 (.ok (some R))) :
    IsFiltered g (fun m rs => (Reaches (g.next true) initial m → rs.Perm (kept u g m)) ∧ (¬ Reaches (g.next true) initial m → rs = g.out m)) R := by
  have hf : ∀ m, fails u g m = false := fun m => by simp [fails, hp]
  unfold Filters at h
  dsimp only at h
  split at h
  · rename_i hc
    obtain ⟨-, hp, he⟩ := inferred_trivial hc
    obtain ⟨-, -, -, h⟩ := h
    simp only [Except.ok.injEq, Option.some.injEq] at h
    subst h
    exact whole hw fun m => ⟨fun _ => by rw [kept_all hp he], fun _ => rfl⟩
  · rw [inferred_none ht] at h
    rw [if_neg (by simp [deletable, hp])] at h
    simp only [if_true] at h
    refine (runs_back (.inr (by rw [hp]; rfl)) h).imp fun m hm rs hrs => ⟨fun hr => ?_, hrs.2⟩
    rw [(hrs.1 hr).1]
    refine (pick_kept hl ht).trans (.of_eq ?_)
    unfold kept
    exact List.filter_congr fun e _ => by rw [hf]; simp

/-- With a backward zone and a thinner, the edges of those vertices are thinned. -/
theorem C91_thinned (hl : u.Lawful) {lt : L × V → L × V → Bool} (ht : u.thinner = some lt)
    (h : Filters u g true initial addr hn 0 0 0 (.ok (some R))) :
    IsFiltered g (fun m rs => (Reaches (g.next true) initial m → Thinned u lt g m rs) ∧ (¬ Reaches (g.next true) initial m → rs = g.out m)) R := by
  unfold Filters at h
  dsimp only at h
  split at h
  · rename_i hc
    rw [(inferred_trivial hc).1] at ht; cases ht
  · rw [if_neg (by rw [inferred_thinner, ht]; simp)] at h
    simp only [if_true] at h
    refine (runs_back (.inl (by rw [inferred_thinner, ht]; rfl)) h).imp fun m hm rs hrs => ⟨fun hr => ?_, hrs.2⟩
    obtain ⟨rfl, h0⟩ := hrs.1 hr
    exact pick_thinned hl ht ((pick_zero h0).2 _ ht)

/-! ## C92 -/

/-- Edges are filtered without errors if no function raises one. -/
theorem cutting_status (hw : g.WF) (hl : u.Lawful) {del : Fin n → List N} (hdel : u.inferred.thinner = none ∨ ∀ i, del i = [])
    (hp : ∀ m ∈ g.nodes, ∀ e, ¬ ProbeError u g m e) (he : ∀ m ∈ g.nodes, ∀ e, ¬ EdgeError u g m e)
    {y : State n (Pkt N L) (Trav.Job n N (Mem N L))}
    (hy : Net.Reach (cutting u.inferred g false del addr hn) (.visit g.base none) (Trav.start (mem g)) y) (hd : y.main = .done) : status y.g = 0 := by
  by_contra hs
  obtain ⟨i, hi⟩ := status_mem hs
  obtain ⟨m, h1, h2, h3⟩ := (fwd_reach hdel _ (reach_bag hn hy)).2.raised i (hi ▸ hs)
  have hr := (rover_reach hdel (Rover.done_bag hn hy hd)).reach i m h1
  have hm : m ∈ g.nodes := (hw.reach m).2 (Relation.ReflTransGen.mono (p := fun x y => y ∈ g.next false x) (fun x y hxy => arcs_sub hl hxy) _ _ hr)
  rcases pick_error hs (by rw [hi]; exact h3.symm) with h | h
  · exact hp m hm _ h
  · exact he m hm _ h

/-- **C92.** A kill request made while vertices are tested can be lost.  If enough edges from the base vertex pass but lead to
vertices that fail, then there's an execution that's killed and returns a graph without an error, where one of them remains. -/
theorem C92_kill_lost (hw : g.WF) (hl : u.Lawful) (ht : u.thinner = none) (hp : ∀ m ∈ g.nodes, ∀ e, ¬ ProbeError u g m e)
    (he : ∀ m ∈ g.nodes, ∀ e, ¬ EdgeError u g m e) (hb : fails u g g.base = false) {es : List (L × N)} (hes : ∀ e ∈ es, e ∈ g.out g.base ∧ passes u g g.base e = true ∧ fails u g e.2 = true)
    (hnd : (es.map Prod.snd).Nodup) (hmany : 31 * n + 1 ≤ es.length) (addr : N → Nat) (hn : 0 < n) (initial : N) :
    ∃ R, Filters u g false initial addr hn 1 0 0 (.ok (some R)) ∧ ∃ m ∈ R.nodes, fails u g m = true := by
  have hbn : g.base ∈ g.nodes := (hw.reach _).2 .refl
  have hpb : u.probe.isNone = false := by
    rcases hu : u.probe with _ | p
    · exfalso
      rcases es with _ | ⟨e, es⟩
      · simp at hmany
      · have := (hes e (by simp)).2.2
        simp [fails, hu] at this
    · rfl
  obtain ⟨x, hx, hd, hfew, hk⟩ := Trav.killed_few (next := g.next false) (fun i (D : Fin n → List N) m =>
      let r := deletable u g m (g.out m)
      (if r.1 = true ∧ r.2 = 0 then Function.update D i (m :: D i) else D, r.2)) addr hn (fun _ => []) (a := g.base) (ms := g.nodes)
    (fun m h => (hw.reach m).2 h) (fun s => s.killed = 1) rfl (fun i s m h => by
      unfold Trav.handle Trav.poll
      dsimp only
      split_ifs <;> exact h)
  have hbx := Rover.done_bag hn hx hd
  obtain ⟨h1, -, h3⟩ := marking_inv (f := u) (g := g) (backwards := false) _ hbx
  have hs : status x.g = 0 := by
    by_contra hs
    obtain ⟨i, hi⟩ := status_mem hs
    obtain ⟨m, hm, hme⟩ := h3 i (hi ▸ hs)
    exact hp m ((hw.reach m).2 hm) _ (deletable_error.2 ⟨hi ▸ hs, hme.symm⟩)
  have hm : Marks u g false g.base addr hn 1 x.g.mem 0 := by
    unfold Marks
    rw [ht, if_neg (by simp [hpb])]
    exact ⟨x, hx, hd, hk, rfl, hs⟩
  have hdel : u.inferred.thinner = none ∨ ∀ i, x.g.mem i = [] := .inl (by rw [inferred_thinner]; exact ht)
  obtain ⟨y, hy, hdy, hky⟩ := exists_cutting (g := g) (inferred_lawful hl) hdel addr hn (a := g.base) (backwards := false) (ms := g.nodes) fun m h => (hw.reach m).2 h
  have hsy := cutting_status hw hl hdel hp he hy hdy
  obtain ⟨z, hz, hdz, hkz⟩ := exists_pruning hw (inferred_lawful hl) (reach_bag hn hy)
  rw [inferred_none ht] at hy
  have hbase : ¬ Dead x.g.mem addr hn g.base := by
    intro h
    have := (marks_sound hm h).1
    rw [hb] at this; cases this
  obtain ⟨o1, o2⟩ := outcome (.inl ht) hbase hy hdy hky hsy hz hdz hkz
  obtain ⟨m, hm', hun⟩ := Trav.one_unvisited hfew hnd (by rw [List.length_map]; exact hmany)
  obtain ⟨e, hee, rfl⟩ := List.mem_map.1 hm'
  obtain ⟨q1, q2, q3⟩ := hes e hee
  refine ⟨result g y.g.mem z.g, ?_, e.2, ?_, q3⟩
  · unfold Filters
    dsimp only
    rw [inferred_none ht, if_neg (by simp [hpb])]
    have h0 : (deletable u g g.base (g.out g.base)).2 = 0 := by
      by_contra h0
      exact hp _ hbn _ (deletable_error.2 ⟨h0, rfl⟩)
    rw [if_neg (by rw [deletable_ok h0, hb]; simp)]
    refine ⟨x.g.mem, 0, hm, y, hy, hdy, hky, ?_⟩
    rw [if_neg (by simp), if_neg (by simpa using hsy)]
    exact ⟨z, hz, hdz, hkz, .inr ⟨.inl rfl, rfl⟩⟩
  · have hbR : g.base ∈ (result g y.g.mem z.g).nodes := (o1.nodes.mem _).2 .refl
    refine (o1.nodes.mem _).2 (.tail .refl (List.mem_map.2 ⟨e, (o1.out _ hbR).mem_iff.2 (List.mem_filter.2 ⟨?_, ?_⟩), rfl⟩))
    · exact (pick_kept hl ht).mem_iff.2 (List.mem_filter.2 ⟨q1, q2⟩)
    · simp only [decide_eq_true_eq]
      intro hdead
      exact hun _ ((h1 _ _).1 hdead).1

/-! ## C93 -/

/-- **C93.** Throughout, every edge of every vertex is either still one of its edges or to be freed, and not both. -/
theorem C93_conserved (hl : u.Lawful) {backwards : Bool} {del : Fin n → List N} {y : State n (Pkt N L) (Trav.Job n N (Mem N L))}
    (hy : Net.Reach (cutting u.inferred g backwards del addr hn) (.visit initial none) (Trav.start (mem g)) y) (m : N) :
    (y.g.mem.out m ++ y.g.mem.cut m).Perm (g.out m) :=
  conserved (inferred_lawful hl) _ (reach_bag hn hy) m

/-! ## C94 -/

/-- **C94.** A kill request made while the graph is pruned can be lost, too, and then it does harm.  If the base vertex has an edge to be cut and
enough edges to be kept to vertices on another lane, there is an execution that's killed and returns a graph without an error, where
the base vertex has an edge to a vertex that has been freed. -/
theorem C94_dangling (hw : g.WF) (hl : u.Lawful) (ht : u.thinner = none) (hp : ∀ m ∈ g.nodes, ∀ e, ¬ ProbeError u g m e)
    (he : ∀ m ∈ g.nodes, ∀ e, ¬ EdgeError u g m e) (hb : fails u g g.base = false) (addr : N → Nat) (hn : 0 < n) {i : Fin n}
    (hcut : ∃ e ∈ g.out g.base, e ∉ kept u g g.base) (hno : ∀ m ∈ g.nodes, g.base ∉ g.next false m)
    (hal : ∀ m ∈ g.nodes, Build.lane hn (addr m) = Build.lane hn (addr g.base) → m = g.base)
    (hmany : 32 ≤ (kept u g g.base).countP fun e => decide (Build.lane hn (addr e.2) = i)) (initial : N) :
    ∃ R k, k ≠ 0 ∧ Filters u g false initial addr hn 0 0 k (.ok (some R)) ∧ R.base ∈ R.nodes ∧ ∃ e ∈ R.out R.base, e.2 ∉ R.nodes := by
  have hbn : g.base ∈ g.nodes := (hw.reach _).2 .refl
  obtain ⟨del, e', hm⟩ := marks_exists u g false (a := g.base) addr hn (ms := g.nodes) fun m h => (hw.reach m).2 h
  have he' : e' = 0 := by
    by_contra h0
    obtain ⟨m, h1, h2⟩ := marks_error hm h0
    exact hp m ((hw.reach m).2 h1) _ h2
  subst he'
  have hdel : u.inferred.thinner = none ∨ ∀ i, del i = [] := .inl (by rw [inferred_thinner]; exact ht)
  obtain ⟨y, hy, hdy, hky⟩ := exists_cutting (g := g) (inferred_lawful hl) hdel addr hn (a := g.base) (backwards := false) (ms := g.nodes) fun m h => (hw.reach m).2 h
  have hsy := cutting_status hw hl hdel hp he hy hdy
  have hreach : ∀ m, Reaches (fun m => (y.g.mem.out m).map fun e => e.2) g.base m → m ∈ g.nodes := reachable hw (inferred_lawful hl) (reach_bag hn hy)
  have hcons := conserved (inferred_lawful hl) _ (reach_bag hn hy)
  rw [inferred_none ht] at hy
  have hbase : ¬ Dead del addr hn g.base := by
    intro h
    have := (marks_sound hm h).1
    rw [hb] at this; cases this
  have hfine : Fine y.g := fun i => ⟨status_zero.1 hsy i, cutting_stop _ (reach_bag hn hy) hky i⟩
  have hout : (y.g.mem.out g.base).Perm (kept u g g.base) :=
    (cutting_done (.inl ht) hy hdy hfine ((cutting_visited (.inl ht) hy hdy hfine _).2 .refl) hbase).trans
      (pick_filter hl ht fun e he => (marks_done ht hm (.tail .refl (List.mem_map.2 ⟨e, he, rfl⟩))).1)
  obtain ⟨ts, hts⟩ := Merge.covers_of hw.nodup hreach
  obtain ⟨z, hz, hdz, hkz, hz1, hz2⟩ := Trav.killed_stop (fun (_ : Fin n) (_ : Unit) _ => ((), 0)) addr hn () hts
  have hbz := Rover.done_bag hn hz hdz
  have hi : z.g.stop i = true := by
    refine hz1 i ?_
    unfold Trav.fan
    rw [List.countP_map, (hout.countP_eq _)]
    exact hmany
  have hj : z.g.stop (Build.lane hn (addr g.base)) = false := by
    refine hz2 _ (le_trans (le_of_eq ?_) (Nat.zero_le _))
    rw [List.sum_eq_zero_iff]
    intro k hk
    obtain ⟨t, ht', rfl⟩ := List.mem_map.1 hk
    unfold Trav.fan
    rw [List.countP_eq_zero]
    intro v hv hlv
    obtain ⟨e, hee, rfl⟩ := List.mem_map.1 hv
    have htn : t ∈ g.nodes := hreach t ((hts.mem t).1 ht')
    have heg : e ∈ g.out t := (hcons t).mem_iff.1 (List.mem_append_left _ hee)
    have hne : e.2 ∈ g.next false t := List.mem_map.2 ⟨e, heg, rfl⟩
    have hen : e.2 ∈ g.nodes := by
      rw [hw.reach] at htn ⊢
      exact htn.tail hne
    rw [hal _ hen (of_decide_eq_true hlv)] at hne
    exact hno _ htn hne
  have hij : i ≠ Build.lane hn (addr g.base) := by
    rintro rfl
    rw [hi] at hj; cases hj
  have hn1 : 1 < n := by
    have h1 := i.isLt
    have h2 := (Build.lane hn (addr g.base)).isLt
    have h3 : i.val ≠ (Build.lane hn (addr g.base)).val := fun h => hij (Fin.ext h)
    omega
  have hsw : sweepable g y.g.mem addr hn z.g := by
    obtain ⟨e, he1, he2⟩ := hcut
    refine .inl ⟨g.base, fun hc => he2 ?_⟩
    have := (hcons g.base).mem_iff.2 he1
    rw [hc, List.append_nil] at this
    exact hout.mem_iff.1 this
  have hseen : g.base ∈ z.g.seen (Build.lane hn (addr g.base)) := by
    rcases Trav.first _ hbz with ⟨h, -⟩ | h
    · exact absurd h (by simp)
    · exact h
  obtain ⟨e, hee, hel⟩ : ∃ e ∈ y.g.mem.out g.base, Build.lane hn (addr e.2) = i := by
    have : 0 < (y.g.mem.out g.base).countP fun e => decide (Build.lane hn (addr e.2) = i) := by
      rw [hout.countP_eq]; omega
    obtain ⟨e, he, h⟩ := List.countP_pos_iff.1 this
    exact ⟨e, he, of_decide_eq_true h⟩
  refine ⟨result g y.g.mem z.g, z.g.killed, by rw [hkz]; exact Nat.one_ne_zero, ?_, ?_, e, hee, ?_⟩
  · unfold Filters
    dsimp only
    rw [inferred_none ht, if_neg]
    · have h0 : (deletable u g g.base (g.out g.base)).2 = 0 := by
        by_contra h0
        exact hp _ hbn _ (deletable_error.2 ⟨h0, rfl⟩)
      rw [if_neg (by rw [deletable_ok h0, hb]; simp)]
      refine ⟨del, 0, hm, y, hy, hdy, hky, ?_⟩
      rw [if_neg (by simp), if_neg (by simpa using hsy)]
      exact ⟨z, hz, hdz, rfl, .inr ⟨.inr ⟨hn1, hsw⟩, rfl⟩⟩
    · rintro ⟨h1, h2⟩
      obtain ⟨e, he1, he2⟩ := hcut
      rw [kept_all (Option.isNone_iff_eq_none.1 h1) (Option.isNone_iff_eq_none.1 h2)] at he2
      exact he2 he1
  · refine List.mem_flatMap.2 ⟨Build.lane hn (addr g.base), List.mem_finRange _, ?_⟩
    rw [hj]; exact hseen
  · intro hc
    obtain ⟨k, -, hk⟩ := List.mem_flatMap.1 hc
    split_ifs at hk with hsk
    · cases hk
    · have := Trav.home _ hbz k _ hk
      rw [hel] at this
      subst this
      exact hsk hi

/-! ## Cases -/

/-- A graph of five vertices. -/
def net : Gr Nat Nat Bool where
  nodes := List.range 5
  base := 0
  vertex m := m
  out m := match m with
    | 0 => [(true, 1), (true, 2), (false, 3)]
    | 1 => [(true, 4), (true, 0)]
    | 2 => [(true, 3)]
    | 3 => [(true, 4)]
    | _ => []
  inn m := match m with
    | 0 => [(true, 1)]
    | 1 => [(true, 0)]
    | 2 => [(true, 0)]
    | 3 => [(false, 0), (true, 2)]
    | 4 => [(true, 1), (true, 3)]
    | _ => []

theorem net_wf : net.WF := wf_range (k := 5) rfl rfl (by decide) (by decide) (by decide)

/-- A test for edges: they pass if the label of any of them is true. -/
def marked : EdgeTest Nat Bool := ⟨false, fun _ e => e.1, fun _ es => es.any Prod.fst⟩

theorem any_perm {es es' : List (Bool × Nat)} (h : es.Perm es') : es.any Prod.fst = es'.any Prod.fst := by
  rw [Bool.eq_iff_iff, List.any_eq_true, List.any_eq_true]
  simp only [h.mem_iff]

/-- Vertices other than 2 pass, and edges labelled true. -/
def sieve : Filter Nat Bool := ⟨some fun v _ _ => (v == 2, 0), some marked, none, none, fun _ _ => 0⟩

theorem sieve_lawful : sieve.Lawful :=
  ⟨fun _ h => (by cases h), fun t h v es es' hp => by cases h; exact any_perm hp, fun _ h => (by cases h), fun _ _ h => (by cases h)⟩

theorem sieve_quiet (g : Gr Nat Nat Bool) (m : Nat) (e : Int) : ¬ ProbeError sieve g m e ∧ ¬ EdgeError sieve g m e :=
  ⟨by rintro ⟨h, p, hp, h'⟩; cases hp; exact h h'.symm, by rintro ⟨h, -, h'⟩; exact h h'.symm⟩

/-- With any number of lanes, the vertices 0, 1 and 4 are left. -/
example (hn : 0 < n) (addr : Nat → Nat) : ∃ R, Filters sieve net false 0 addr hn 0 0 0 (.ok (some R)) ∧ (∀ m, m ∈ R.nodes ↔ m = 0 ∨ m = 1 ∨ m = 4) ∧
    (R.out 0).Perm [(true, 1)] ∧ (R.out 1).Perm [(true, 4), (true, 0)] := by
  obtain ⟨r, hr⟩ := C29_exists net_wf sieve_lawful addr hn 0
  have h := C29_correct net_wf sieve_lawful rfl (fun m _ e => (sieve_quiet _ m e).1) (fun m _ e => (sieve_quiet _ m e).2) hr
  rw [if_neg (by decide)] at h
  obtain ⟨R, rfl, h⟩ := h
  have h0 := C29_nodes net_wf sieve_lawful rfl hr
  have h1 : ∀ m, m ∈ R.nodes ↔ m = 0 ∨ m = 1 ∨ m = 4 := by
    intro m
    rw [h0]
    constructor
    · intro hm
      induction hm with
      | refl => exact .inl rfl
      | tail _ hb ih =>
        dsimp only at hb
        rcases ih with rfl | rfl | rfl
        · rw [show (kept sieve net 0).map Prod.snd = [1] from by decide] at hb; simp at hb; omega
        · rw [show (kept sieve net 1).map Prod.snd = [4, 0] from by decide] at hb; simp at hb; omega
        · rw [show (kept sieve net 4).map Prod.snd = [] from by decide] at hb; cases hb
    · rintro (rfl | rfl | rfl)
      · exact .refl
      · exact .tail .refl (by decide)
      · exact .tail (b := 1) (.tail .refl (by decide)) (by decide)
  refine ⟨R, hr, h1, ?_, ?_⟩
  · exact (h.out 0 ((h1 0).2 (.inl rfl))).trans (.of_eq (by decide))
  · exact (h.out 1 ((h1 1).2 (.inr (.inl rfl)))).trans (.of_eq (by decide))

/-- The initial vertex of a zone doesn't matter.  Vertex 2 can't be reached from 4. -/
example (hn : 0 < n) (addr : Nat → Nat) : ∃ R, Filters sieve net false 4 addr hn 0 0 0 (.ok (some R)) ∧ 2 ∉ R.nodes ∧ ¬ Reaches (net.next false) 4 2 := by
  obtain ⟨r, hr⟩ := C29_exists net_wf sieve_lawful addr hn 4
  have h := C29_correct net_wf sieve_lawful rfl (fun m _ e => (sieve_quiet _ m e).1) (fun m _ e => (sieve_quiet _ m e).2) hr
  rw [if_neg (by decide)] at h
  obtain ⟨R, rfl, -⟩ := h
  have hno : ¬ Reaches (net.next false) 4 2 := by
    intro h
    rcases Relation.ReflTransGen.cases_head h with h | ⟨c, hc, -⟩
    · cases h
    · cases hc
  exact ⟨R, hr, (C90_ignored net_wf sieve_lawful rfl hr).1 2 hno (by decide), hno⟩

/-- The base vertex fails. -/
example (hn : 0 < n) (addr : Nat → Nat) {r} (h : Filters { sieve with probe := some fun v _ _ => (v == 0, 0) } net false 0 addr hn 0 0 0 r) : r = .ok none :=
  (C29_reclaimed (by rintro e ⟨h, p, hp, h'⟩; cases hp; exact h h'.symm) rfl h).2 (by decide)

/-- An error is raised by the vertex test on vertex 3. -/
example (hn : 0 < n) (addr : Nat → Nat) : ∃ e, Filters { sieve with probe := some fun v _ _ => (false, if v = 3 then 7 else 0) } net false 0 addr hn 0 0 0 (.error e) := by
  obtain ⟨r, hr⟩ := C29_exists (u := { sieve with probe := some fun v _ _ => (false, if v = 3 then 7 else 0) }) net_wf
    ⟨fun _ h => (by cases h), fun t h v es es' hp => by cases h; exact any_perm hp, fun _ h => (by cases h), fun _ _ h => (by cases h)⟩ addr hn 0
  rcases r with e | _ | R
  · exact ⟨e, hr⟩
  · have := (C29_reclaimed (by rintro e ⟨h, p, hp, h'⟩; cases hp; exact h h'.symm) rfl hr).1 rfl
    cases this
  · exact absurd ⟨by decide, _, rfl, rfl⟩ ((C29_error_reported net_wf rfl hr 7).1 3 (by decide))

/-- Classes of edges with the same label, where classes of more than one pass, and the first in the order of labels is retained. -/
def comb : Filter Nat Bool :=
  ⟨none, some ⟨false, fun _ e => e.1, fun _ es => decide (1 < es.length)⟩, some (fun l => if l then 1 else 0, fun a b => a == b),
    some fun a b => !a.1 && b.1, fun _ _ => 0⟩

theorem comb_lawful : comb.Lawful := by
  refine ⟨fun o h => ?_, fun t h v es es' hp => ?_, fun lt h => ?_, fun o lt h h' => ?_⟩
  · cases h
    exact ⟨⟨by decide, by decide, by decide⟩, by unfold HashRespects; decide⟩
  · cases h; simp only [hp.length_eq]
  · cases h
    constructor
    · rintro ⟨a, x⟩ ⟨b, y⟩ <;> cases a <;> cases b <;> simp
    · rintro ⟨a, x⟩ ⟨b, y⟩ ⟨c, z⟩ <;> cases a <;> cases b <;> cases c <;> simp
  · cases h; cases h'
    rintro ⟨a, x⟩ ⟨b, y⟩ ⟨c, z⟩ ⟨d, w⟩ <;> cases a <;> cases b <;> cases c <;> cases d <;> simp

/-- The two edges labelled true of vertices 0 and 1 are retained, and the others are not. -/
example (hn : 0 < n) (addr : Nat → Nat) : ∃ R, Filters comb net false 0 addr hn 0 0 0 (.ok (some R)) ∧ (R.out 0).Perm [(true, 1), (true, 2)] := by
  obtain ⟨r, hr⟩ := C29_exists net_wf comb_lawful addr hn 0
  obtain ⟨R, rfl, h⟩ := C89_correct net_wf comb_lawful rfl (fun m _ e => by rintro ⟨-, p, hp, -⟩; cases hp)
    (fun m _ e => by rintro ⟨h, -, h'⟩; exact h h'.symm) hr
  refine ⟨R, hr, ?_⟩
  have := h.out 0 ((h.nodes.mem 0).2 .refl)
  unfold Thinned at this
  rw [if_neg (by decide)] at this
  obtain ⟨e, he, hp, hR, -⟩ := this.2 (by decide)
  refine hR.trans (.of_eq ?_)
  revert hp
  simp only [net, List.mem_cons, List.not_mem_nil, or_false] at he
  rcases he with rfl | rfl | rfl <;> decide

/-- A base vertex with edges to a number of others. -/
def star (k : Nat) : Gr Nat Nat Bool where
  nodes := List.range (k + 1)
  base := 0
  vertex m := m
  out m := if m = 0 then (List.range k).map fun j => (true, j + 1) else []
  inn m := if 0 < m ∧ m < k + 1 then [(true, 0)] else []

theorem star_wf (k : Nat) : (star k).WF := by
  refine wf_range (k := k + 1) rfl rfl (by omega) (fun m _ e he => ?_) (fun m hm h0 => ⟨0, by omega, (true, m), ?_, rfl⟩)
  · simp only [star] at he
    split_ifs at he
    · obtain ⟨j, hj, rfl⟩ := List.mem_map.1 he
      have := List.mem_range.1 hj
      dsimp only; omega
    · cases he
  · simp only [star, if_true]
    exact List.mem_map.2 ⟨m - 1, List.mem_range.2 (by omega), by simp; omega⟩

/-- Vertices other than the first fail. -/
def strict : Filter Nat Bool := ⟨some fun v _ _ => (v != 0, 0), none, none, none, fun _ _ => 0⟩

theorem strict_lawful : strict.Lawful :=
  ⟨fun _ h => (by cases h), fun t h => (by cases h), fun _ h => (by cases h), fun _ _ h => (by cases h)⟩

/-- With any number of lanes, a kill request can be lost. -/
example (hn : 0 < n) (addr : Nat → Nat) : ∃ R, Filters strict (star (31 * n + 1)) false 0 addr hn 1 0 0 (.ok (some R)) ∧ ∃ m ∈ R.nodes, m ≠ 0 := by
  obtain ⟨R, h, m, hm, hf⟩ := C92_kill_lost (u := strict) (es := (star (31 * n + 1)).out 0) (star_wf _) strict_lawful rfl
    (fun m _ e => by rintro ⟨h, p, hp, h'⟩; cases hp; exact h h'.symm) (fun m _ e => by rintro ⟨h, -, h'⟩; exact h h'.symm) rfl
    (fun e he => ⟨he, rfl, by
      obtain ⟨j, -, rfl⟩ := List.mem_map.1 he
      simp [fails, strict, star]⟩)
    (by
      simp only [star, if_true, List.map_map]
      exact List.Nodup.map (fun a b h => by simpa using h) List.nodup_range)
    (by simp [star]) addr hn 0
  exact ⟨R, h, m, hm, by rintro rfl; cases hf⟩

/-- A kill request can leave an edge to a vertex that's been freed. -/
example : ∃ R k, k ≠ 0 ∧ Filters sieve (star 33) false 0 (fun m => if m = 0 then 0 else 1) (n := 2) (by decide) 0 0 k (.ok (some R)) ∧
    ∃ e ∈ R.out R.base, e.2 ∉ R.nodes := by
  obtain ⟨R, k, h0, h1, -, h2⟩ := C94_dangling (u := sieve) (g := star 33) (n := 2) (i := 1) (star_wf _) sieve_lawful rfl
    (fun m _ e => (sieve_quiet _ m e).1) (fun m _ e => (sieve_quiet _ m e).2) rfl (fun m => if m = 0 then 0 else 1) (by decide)
    ⟨(true, 2), by decide +kernel, by decide +kernel⟩ (by decide +kernel) (by decide +kernel) (by decide +kernel) 0
  exact ⟨R, k, h0, h1, h2⟩

/-! ## C95 -/

/-- A path of four vertices. -/
def path : Gr Nat Nat Bool where
  nodes := List.range 4
  base := 0
  vertex m := m
  out m := if m < 3 then [(true, m + 1)] else []
  inn m := if 0 < m ∧ m < 4 then [(true, m - 1)] else []

theorem path_wf : path.WF ∧ path.Duplex := ⟨wf_range (k := 4) rfl rfl (by decide) (by decide) (by decide), by unfold Gr.Duplex; decide⟩

/-- The vertices 1 and 2 fail. -/
def gap : Filter Nat Bool := ⟨some fun v _ _ => (v == 1 || v == 2, 0), none, none, none, fun _ _ => 0⟩

def marked1 : State 1 Nat (Trav.Job 1 Nat (Fin 1 → List Nat)) := greedy (marking gap path true id Nat.one_pos) 3 200 (init (Trav.start fun _ => []))

def cut1 : State 1 (Pkt Nat Bool) (Trav.Job 1 Nat (Mem Nat Bool)) :=
  greedy (cutting gap path true marked1.g.mem id Nat.one_pos) (.visit 3 none) 200 (init (Trav.start (mem path)))

def pruned1 : State 1 Nat (Trav.Job 1 Nat Unit) := greedy (pruning cut1.g.mem.out id Nat.one_pos) 0 200 (init (Trav.start ()))

/-- **C95.** With a backward zone, a vertex in the zone that fails can be left in the graph without any error. -/
theorem C95_survivor : ∃ (u : Filter Nat Bool) (g R : Gr Nat Nat Bool) (initial m : Nat), g.WF ∧ g.Duplex ∧ u.Lawful ∧
    Filters u g true initial id Nat.one_pos 0 0 0 (.ok (some R)) ∧ m ∈ R.nodes ∧ Reaches (g.next true) initial m ∧ fails u g m = true := by
  refine ⟨gap, path, result path cut1.g.mem pruned1.g, 3, 1, path_wf.1, path_wf.2,
    ⟨fun _ h => (by cases h), fun t h => (by cases h), fun _ h => (by cases h), fun _ _ h => (by cases h)⟩, ?_, by decide +kernel, ?_, rfl⟩
  · refine ⟨marked1.g.mem, 0, ⟨marked1, greedy_reach _ _ .init, by decide +kernel, by decide +kernel, rfl, by decide +kernel⟩, cut1, greedy_reach _ _ .init, by decide +kernel, by decide +kernel, ?_⟩
    rw [if_neg (by simp), if_neg (by decide +kernel)]
    exact ⟨pruned1, greedy_reach _ _ .init, by decide +kernel, by decide +kernel, .inr ⟨.inl rfl, rfl⟩⟩
  · exact .tail (b := 2) (.tail .refl (by decide)) (by decide)

def marked2 : State 1 Nat (Trav.Job 1 Nat (Fin 1 → List Nat)) :=
  greedy (marking { gap with probe := some fun v _ _ => (v == 3, 0) } net true id Nat.one_pos) 4 200 (init (Trav.start fun _ => []))

def cut2 : State 1 (Pkt Nat Bool) (Trav.Job 1 Nat (Mem Nat Bool)) :=
  greedy (cutting { gap with probe := some fun v _ _ => (v == 3, 0) } net true marked2.g.mem id Nat.one_pos) (.visit 4 none) 200 (init (Trav.start (mem net)))

/-- A vertex in the zone that fails and has more than one incoming edge can cause an internal error. -/
theorem C95_internal : ∃ (u : Filter Nat Bool) (g : Gr Nat Nat Bool) (initial : Nat), g.WF ∧ g.Duplex ∧ u.Lawful ∧
    (∀ m e, ¬ ProbeError u g m e ∧ ¬ EdgeError u g m e) ∧ Filters u g true initial id Nat.one_pos 0 0 0 (.error (-885)) := by
  refine ⟨{ gap with probe := some fun v _ _ => (v == 3, 0) }, net, 4, net_wf, by unfold Gr.Duplex; decide,
    ⟨fun _ h => (by cases h), fun t h => (by cases h), fun _ h => (by cases h), fun _ _ h => (by cases h)⟩,
    fun m e => ⟨by rintro ⟨h, p, hp, h'⟩; cases hp; exact h h'.symm, by rintro ⟨h, -, h'⟩; exact h h'.symm⟩, ?_⟩
  refine ⟨marked2.g.mem, 0, ⟨marked2, greedy_reach _ _ .init, by decide +kernel, by decide +kernel, rfl, by decide +kernel⟩, cut2, greedy_reach _ _ .init, by decide +kernel, by decide +kernel, ?_⟩
  rw [if_neg (by simp), if_pos (by decide +kernel)]
  exact ⟨rfl, by rw [show status cut2.g = -885 from by decide +kernel]⟩

/-- A backward zone without a vertex test: the edges of the initial vertex and its ancestors are filtered. -/
example {R} (h : Filters { sieve with probe := none } net true 2 id Nat.one_pos 0 0 0 (.ok (some R))) : (R.out 0).Perm [(true, 1), (true, 2)] := by
  have h1 := C91_edges net_wf ⟨fun _ h => (by cases h), fun t h v es es' hp => by cases h; exact any_perm hp, fun _ h => (by cases h), fun _ _ h => (by cases h)⟩ rfl rfl h
  exact ((h1.out 0 ((h1.nodes.mem 0).2 .refl)).1 (.tail .refl (by decide))).trans (.of_eq (by decide))

end Cru.Filter
