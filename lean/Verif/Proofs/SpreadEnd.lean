import Verif.Proofs.SpreadStep
import Verif.Proofs.BuildDone
import Mathlib.Algebra.BigOperators.Group.List.Basic

/-! # The end of the spreading task -/

namespace Cru.Spread

open Net Build

variable {n : Nat} {N V L : Type} {b : Builder V L} {g : Gr N V L} {hn : 0 < n}
variable [DecidableEq N] [DecidableEq V] {x : Pre n N L} {s : Job n N V L} {bag : Multiset (Pkt N V L)}

omit [DecidableEq N] [DecidableEq V] in
theorem status_zero : status s = 0 ↔ ∀ i, s.err i = 0 := by
  unfold status
  rw [(status_fold _ _).1]
  simp

omit [DecidableEq N] [DecidableEq V] in
theorem status_mem (h : status s ≠ 0) : ∃ i, s.err i = status s := by
  rcases (status_fold ((List.finRange n).map s.err) 0).2 with h1 | h1
  · exact absurd h1 h
  · rw [List.mem_map] at h1
    obtain ⟨i, -, h2⟩ := h1
    exact ⟨i, h2⟩

omit [DecidableEq N] [DecidableEq V] in
/-- At the end, every worker with nodes has started. -/
theorem all_started {ns : Fin n → List V} (hw : g.WF) (h : Sound b g x hn ns s 0) {m : N} (hm : m ∈ g.nodes) : s.started (spot b hn (g.vertex m)) = true := by
  have := (hw.reach m).1 hm
  clear hm
  induction this with
  | refl =>
    rcases h.base with h1 | ⟨l, h1⟩
    · exact h1
    · simp at h1
  | @tail c d hc hd ih =>
    rcases h.closed c ((hw.reach c).2 hc) ih d hd with h1 | ⟨l, h1⟩
    · exact h1
    · simp at h1

omit [DecidableEq N] [DecidableEq V] in
theorem not_sweepable {ns : Fin n → List V} (hw : g.WF) (hx : Sorted b g hn x) (h : Sound b g x hn ns s 0) : ¬ sweepable x s := by
  rintro ⟨i, h1, h2⟩
  obtain ⟨m, hm⟩ := List.exists_mem_of_ne_nil _ h2
  rw [hx.del, List.mem_reverse, hx.mem] at hm
  have := all_started hw h hm.1
  rw [hm.2, h1] at this
  exact absurd this (by decide)

omit [DecidableEq N] [DecidableEq V] in
theorem del_perm (hw : g.WF) (hx : Sorted b g hn x) : ((List.finRange n).flatMap x.del).Perm g.nodes := by
  classical
  refine (List.perm_ext_iff_of_nodup ?_ hw.nodup).2 ?_
  · rw [List.nodup_flatMap]
    refine ⟨fun i _ => by rw [hx.del, List.nodup_reverse]; exact hx.nodup i, ?_⟩
    refine List.Pairwise.imp ?_ (List.nodup_finRange n)
    intro i j hij m hi hj
    rw [hx.del, List.mem_reverse, hx.mem] at hi hj
    exact hij (hi.2.symm.trans hj.2)
  · intro m
    rw [List.mem_flatMap]
    constructor
    · rintro ⟨i, -, h⟩
      rw [hx.del, List.mem_reverse, hx.mem] at h
      exact h.1
    · intro h
      exact ⟨spot b hn (g.vertex m), List.mem_finRange _, by rw [hx.del, List.mem_reverse, hx.mem]; exact ⟨h, rfl⟩⟩

omit [DecidableEq N] [DecidableEq V] in
theorem sum_finRange (f : Fin n → Nat) : ∑ i, f i = ((List.finRange n).map f).sum := by
  rw [← List.sum_ofFn, List.ofFn_eq_map]

omit [DecidableEq V] in
theorem hits_notices (i : Fin n) (m : N) : hits (notices (V := V) x i : Multiset (Pkt N V L)) m =
    ((x.del i).map fun c => ((x.out c).map Prod.snd).count m).sum := by
  unfold hits notices
  rw [Multiset.filterMap_coe, Multiset.coe_count]
  induction x.del i with
  | nil => rfl
  | cons c l ih =>
    rw [List.flatMap_cons, List.filterMap_append, List.count_append, ih, List.map_cons, List.sum_cons]
    congr 1
    rw [List.filterMap_map]
    congr 1
    induction x.out c with
    | nil => rfl
    | cons e es ihe => rw [List.map_cons, ← ihe]; rfl

omit [DecidableEq V] in
/-- The number of packets sent to a known node. -/
theorem total_eq (hw : g.WF) (hx : Sorted b g hn x) (m : N) : total (V := V) g x m = inDegree g m + if m = g.base then 1 else 0 := by
  unfold total
  congr 1
  simp only [hits_notices]
  rw [sum_finRange]
  have h1 : ((List.finRange n).map fun i => ((x.del i).map fun c => ((x.out c).map Prod.snd).count m).sum).sum =
      (((List.finRange n).flatMap x.del).map fun c => ((x.out c).map Prod.snd).count m).sum := by
    induction List.finRange n with
    | nil => rfl
    | cons i l ih => rw [List.map_cons, List.sum_cons, ih, List.flatMap_cons, List.map_append, List.sum_append]
  rw [h1, ((del_perm hw hx).map _).sum_eq, hx.out]
  unfold inDegree
  induction g.nodes with
  | nil => rfl
  | cons c l ih => rw [List.map_cons, List.sum_cons, ih, List.flatMap_cons, List.map_append, List.count_append]

omit [DecidableEq V] in
theorem total_pos (hw : g.WF) (hx : Sorted b g hn x) {m : N} (hm : m ∈ g.nodes) : 0 < total (V := V) g x m := by
  rw [total_eq hw hx]
  rcases Relation.ReflTransGen.cases_tail ((hw.reach m).1 hm) with h | ⟨c, hc, hcm⟩
  · rw [if_pos h]; omega
  · have : 0 < inDegree g m := by
      unfold inDegree
      rw [List.count_pos_iff, List.mem_map]
      unfold Gr.next at hcm
      rw [if_neg (by decide), List.mem_map] at hcm
      obtain ⟨e, he, rfl⟩ := hcm
      exact ⟨e, List.mem_flatMap.2 ⟨c, (hw.reach c).2 hc, he⟩, rfl⟩
    omega

omit [DecidableEq V] in
theorem unsent_zero {ns : Fin n → List V} (hw : g.WF) (hx : Sorted b g hn x) (h : Sound b g x hn ns s 0) (m : N) : unsent x s m = 0 := by
  unfold unsent
  refine Finset.sum_eq_zero ?_
  intro i _
  split_ifs with h1
  · rfl
  · have : x.del i = [] := by
      by_contra h2
      exact not_sweepable hw hx h ⟨i, by simpa using h1, h2⟩
    rw [hits_notices, this]; rfl

omit [DecidableEq N] [DecidableEq V] in
theorem edges_eq (hsub : b.sub = false) (hx : Sorted b g hn x) (a : Addr N V) (t : Nd N V) : edges b a x s t =
    (match t with
      | .old m => (g.out m).map fun e => (e.1, some (.old e.2))
      | .new _ => []) ++ (s.made t).zipIdx.map fun e => (e.1.1, s.link t e.2) := by
  unfold edges
  dsimp only
  rw [if_neg (by simp [hsub]), hx.out]
  rcases t with m | v <;> rfl

omit [DecidableEq N] [DecidableEq V] in
theorem drawn_aux {R : Type} (P : L × V → R → Prop) (f : Nat → Option R) : ∀ (es : List (L × V)) (k : Nat),
    (∀ j e, es[j]? = some e → ∃ u, f (k + j) = some u ∧ P e u) →
    List.Forall₂ (fun e y => y.1 = e.1 ∧ P e y.2) es
      (((es.zipIdx k).map fun e => (e.1.1, f e.2)).filterMap fun e => e.2.map fun u => (e.1, u)) := by
  intro es
  induction es with
  | nil => intro k _; exact .nil
  | cons e es ih =>
    intro k h
    obtain ⟨u, h1, h2⟩ := h 0 e rfl
    rw [List.zipIdx_cons, List.map_cons]
    rw [List.filterMap_cons_some (b := (e.1, u)) (by dsimp only; rw [show f k = some u from h1]; rfl)]
    refine .cons ⟨rfl, h2⟩ (ih (k + 1) ?_)
    intro j e' he'
    obtain ⟨u', h3, h4⟩ := h (j + 1) e' he'
    exact ⟨u', by rw [← h3]; congr 1; omega, h4⟩

/-- A run that ended without errors and kills. -/
structure Final (b : Builder V L) (g : Gr N V L) (x : Pre n N L) (hn : 0 < n) (ns : Fin n → List V) (s : Job n N V L) : Prop where
  sound : Sound b g x hn ns s 0
  full : Full b g x ns s 0

variable {ns : Fin n → List V}

theorem Final.linked (h : Final b g x hn ns s) {t : Nd N V} {j : Nat} {e : L × V} (he : (s.made t)[j]? = some e) :
    ∃ u, s.link t j = some u ∧ Has g ns u ∧ b.vEq e.2 (vertex g u) = true := by
  rcases h.full.pend t j e he with ⟨u, h1⟩ | h1
  · obtain ⟨h2, e', h3, h4⟩ := h.sound.link t j u h1
    rw [he] at h3
    cases h3
    exact ⟨u, h1, h2, h4⟩
  · simp at h1

theorem Final.out (h : Final b g x hn ns s) (hsub : b.sub = false) (hx : Sorted b g hn x) (a : Addr N V) {t : Nd N V}
    (ht : ∀ m, t = .old m → g.out m = []) : Drawn b (result b g a x s) (s.made t) ((result b g a x s).out t) := by
  have : (result b g a x s).out t = ((s.made t).zipIdx.map fun e => (e.1.1, s.link t e.2)).filterMap fun e => e.2.map fun u => (e.1, u) := by
    show (edges b a x s t).filterMap _ = _
    rw [edges_eq hsub hx]
    rcases t with m | v
    · dsimp only; rw [ht m rfl]; rfl
    · rfl
  rw [this]
  refine drawn_aux (fun e u => b.vEq e.2 ((result b g a x s).vertex u) = true) (s.link t) (s.made t) 0 ?_
  intro j e he
  obtain ⟨u, h1, -, h2⟩ := h.linked he
  exact ⟨u, by rw [zero_add]; exact h1, h2⟩

theorem Final.outOld (h : Final b g x hn ns s) (hsub : b.sub = false) (hx : Sorted b g hn x) (a : Addr N V) {m : N} (hm : g.out m ≠ []) :
    (result b g a x s).out (.old m) = (g.out m).map fun e => (e.1, .old e.2) := by
  have h1 : s.made (.old m) = [] := by
    rcases h.sound.madeOld m with h1 | h1
    · exact h1
    · exact absurd h1.2.1 hm
  show (edges b a x s (.old m)).filterMap _ = _
  rw [edges_eq hsub hx, h1]
  dsimp only
  rw [List.zipIdx_nil, List.map_nil, List.append_nil, List.filterMap_map]
  induction g.out m with
  | nil => rfl
  | cons e es ih => rw [List.map_cons, ← ih]; rfl

theorem Final.mem (h : Final b g x hn ns s) (hw : g.WF) (hx : Sorted b g hn x) (t : Nd N V) : t ∈ listed s ↔ Has g ns t := by
  unfold listed
  rw [List.mem_flatMap]
  constructor
  · rintro ⟨i, -, h1⟩
    rw [h.sound.queue] at h1
    split_ifs at h1
    · rw [List.mem_append, List.mem_map, List.mem_map] at h1
      rcases h1 with ⟨m, hm, rfl⟩ | ⟨v, hv, rfl⟩
      · rw [hx.del, List.mem_reverse, hx.mem] at hm
        exact .inl ⟨m, hm.1, rfl⟩
      · exact .inr ⟨i, v, hv, rfl⟩
    · simp at h1
  · rintro (⟨m, hm, rfl⟩ | ⟨i, v, hv, rfl⟩)
    · refine ⟨spot b hn (g.vertex m), List.mem_finRange _, ?_⟩
      rw [h.sound.queue, if_pos (all_started hw h.sound hm), List.mem_append]
      exact .inl (List.mem_map.2 ⟨m, by rw [hx.del, List.mem_reverse, hx.mem]; exact ⟨hm, rfl⟩, rfl⟩)
    · refine ⟨i, List.mem_finRange _, ?_⟩
      have hi : s.started i = true := by
        by_contra h1
        have := h.sound.idle i (by simpa using h1)
        rw [this] at hv; simp at hv
      rw [h.sound.queue, if_pos hi, List.mem_append]
      exact .inr (List.mem_map.2 ⟨v, hv, rfl⟩)

theorem apart_nodup (hb : b.Sane) (h : Final b g x hn ns s) (i : Fin n) : (ns i).Nodup := by
  refine (h.sound.apart i).imp ?_
  intro v w h1 h2
  rw [h2, hb.v.refl] at h1
  exact absurd h1 (by decide)

theorem Final.nodup (h : Final b g x hn ns s) (hb : b.Sane) (hx : Sorted b g hn x) : (listed s).Nodup := by
  unfold listed
  have hlane : ∀ i t, t ∈ s.queue i → spot b hn (vertex g t) = i := by
    intro i t ht
    rw [h.sound.queue] at ht
    split_ifs at ht
    · rw [List.mem_append, List.mem_map, List.mem_map] at ht
      rcases ht with ⟨m, hm, rfl⟩ | ⟨v, hv, rfl⟩
      · rw [hx.del, List.mem_reverse, hx.mem] at hm
        exact hm.2
      · exact (h.sound.novel i v hv).2.2.2
    · simp at ht
  rw [List.nodup_flatMap]
  refine ⟨?_, ?_⟩
  · intro i _
    rw [h.sound.queue]
    split_ifs
    · rw [List.nodup_append]
      refine ⟨?_, ?_, ?_⟩
      · refine List.Nodup.map (fun _ _ h => by cases h; rfl) ?_
        rw [hx.del, List.nodup_reverse]; exact hx.nodup i
      · exact List.Nodup.map (fun _ _ h => by cases h; rfl) (apart_nodup hb h i)
      · intro t ht u hu
        rw [List.mem_map] at ht hu
        obtain ⟨m, -, rfl⟩ := ht
        obtain ⟨v, -, rfl⟩ := hu
        simp
    · exact List.nodup_nil
  · refine List.Pairwise.imp ?_ (List.nodup_finRange n)
    intro i j hij t hi hj
    exact hij ((hlane i t hi).symm.trans (hlane j t hj))

theorem Final.leafMade (h : Final b g x hn ns s) (hw : g.WF) (hx : Sorted b g hn x) {m : N} (hm : m ∈ g.nodes) (hl : g.out m = []) :
    s.made (.old m) = (b.connect .whole (g.vertex m)).2 ∧ (b.connect .whole (g.vertex m)).1 = 0 ∧
    ((b.connect .whole (g.vertex m)).2 ≠ [] → callsOf s (.old m) = 1) ∧
    ((b.connect .whole (g.vertex m)).2 = [] → callsOf s (.old m) = inDegree g m + if m = g.base then 1 else 0) := by
  have h0 : hits (0 : Multiset (Pkt N V L)) m = 0 := by unfold hits; simp
  rcases h.full.leaf m hm hl with ⟨h1, h2, h3⟩ | ⟨h1, h2, h3⟩
  · exact ⟨h2, h.full.code m hm (by omega), fun _ => h3, fun h4 => absurd h4 h1⟩
  · rw [h0, unsent_zero hw hx h.sound] at h3
    have h4 := total_pos (V := V) hw hx hm
    have h5 : callsOf s (.old m) ≠ 0 := by omega
    have h6 := h2.resolve_right h5
    refine ⟨by rw [h1, h6], h.full.code m hm h5, fun h7 => absurd h6 h7, fun _ => ?_⟩
    rw [← total_eq (V := V) hw hx]; omega

theorem Final.arc (h : Final b g x hn ns s) (hsub : b.sub = false) (hx : Sorted b g hn x) (a : Addr N V) {t u : Nd N V} (ha : Arc g s t u) :
    u ∈ (result b g a x s).next false t := by
  unfold Gr.next
  rw [if_neg (by decide), List.mem_map]
  rcases ha with ⟨m, e, he, rfl, rfl⟩ | ⟨j, hj⟩
  · refine ⟨(e.1, .old e.2), ?_, rfl⟩
    rw [h.outOld hsub hx a (List.ne_nil_of_mem he)]
    exact List.mem_map.2 ⟨e, he, rfl⟩
  · obtain ⟨-, e, h1, -⟩ := h.sound.link t j u hj
    refine ⟨(e.1, u), ?_, rfl⟩
    show _ ∈ (edges b a x s t).filterMap _
    rw [edges_eq hsub hx, List.mem_filterMap]
    refine ⟨(e.1, some u), ?_, rfl⟩
    rw [List.mem_append, List.mem_map]
    refine .inr ⟨(e, j), ?_, by dsimp only; rw [hj]⟩
    rw [List.mk_mem_zipIdx_iff_getElem?]; exact h1

theorem Final.closed (h : Final b g x hn ns s) (hsub : b.sub = false) (hw : g.WF) (hx : Sorted b g hn x) (a : Addr N V) {t u : Nd N V}
    (ht : Has g ns t) (hu : u ∈ (result b g a x s).next false t) : Has g ns u := by
  unfold Gr.next at hu
  rw [if_neg (by decide), List.mem_map] at hu
  obtain ⟨f, hf, rfl⟩ := hu
  change f ∈ (edges b a x s t).filterMap _ at hf
  rw [edges_eq hsub hx, List.mem_filterMap] at hf
  obtain ⟨e, he, hef⟩ := hf
  rw [List.mem_append] at he
  rcases he with he | he
  · rcases t with m | v
    · dsimp only at he
      rw [List.mem_map] at he
      obtain ⟨d, hd, rfl⟩ := he
      simp only [Option.map_some, Option.some.injEq] at hef
      subst hef
      rcases ht with ⟨m', hm', heq⟩ | ⟨i, v, hv, heq⟩
      · cases heq
        exact .inl ⟨d.2, next_mem hw hm' (List.mem_map_of_mem hd), rfl⟩
      · cases heq
    · simp at he
  · rw [List.mem_map] at he
    obtain ⟨⟨c, j⟩, hc, rfl⟩ := he
    rw [List.mk_mem_zipIdx_iff_getElem?] at hc
    obtain ⟨u, h1, h2, -⟩ := h.linked hc
    dsimp only at hef
    rw [h1] at hef
    simp only [Option.map_some, Option.some.injEq] at hef
    subst hef
    exact h2

theorem Final.undangling (h : Final b g x hn ns s) (hsub : b.sub = false) (hx : Sorted b g hn x) (a : Addr N V) (t : Nd N V) :
    ∀ e ∈ edges b a x s t, e.2 ≠ none := by
  intro e he
  rw [edges_eq hsub hx, List.mem_append] at he
  rcases he with he | he
  · rcases t with m | v
    · dsimp only at he
      rw [List.mem_map] at he
      obtain ⟨d, -, rfl⟩ := he
      simp
    · simp at he
  · rw [List.mem_map] at he
    obtain ⟨⟨c, j⟩, hc, rfl⟩ := he
    rw [List.mk_mem_zipIdx_iff_getElem?] at hc
    obtain ⟨u, h1, -, -⟩ := h.linked hc
    dsimp only
    rw [h1]; simp

/-- The result is as specified. -/
theorem Final.spreads (h : Final b g x hn ns s) (hb : b.Sane) (hsub : b.sub = false) (hw : g.WF) (hd : Distinct b g) (hx : Sorted b g hn x) (a : Addr N V) :
    Spreads b g .old (result b g a x s) := by
  have hnov : ∀ t ∈ listed s, (∀ m ∈ g.nodes, t ≠ .old m) → ∃ i, ∃ v ∈ ns i, t = .new v := by
    intro t ht hno
    rcases (h.mem hw hx t).1 ht with ⟨m, hm, rfl⟩ | h1
    · exact absurd rfl (hno m hm)
    · exact h1
  refine ⟨⟨h.nodup hb hx, ?_⟩, ?_, rfl, fun _ _ h => by cases h; rfl, fun _ => rfl, ?_, fun m _ hm => h.outOld hsub hx a hm, ?_, ?_⟩
  · intro t
    rw [show (result b g a x s).nodes = listed s from rfl, h.mem hw hx]
    constructor
    · intro ht
      have : Relation.ReflTransGen (Arc g s) (.old g.base) t := by
        rcases ht with ⟨m, hm, rfl⟩ | ⟨i, v, hv, rfl⟩
        · exact old_reach hw m hm
        · exact h.sound.reach i v hv
      exact Relation.ReflTransGen.mono (fun c d hcd => h.arc hsub hx a hcd) _ _ this
    · intro ht
      induction ht with
      | refl => exact .inl ⟨g.base, base_mem hw, rfl⟩
      | tail _ hcd ih => exact h.closed hsub hw hx a ih hcd
  · intro t ht u hu he
    exact has_unique hb hd h.sound ((h.mem hw hx t).1 ht) ((h.mem hw hx u).1 hu) he
  · intro m hm
    exact (h.mem hw hx _).2 (.inl ⟨m, hm, rfl⟩)
  · intro m hm hl
    obtain ⟨h1, h2, -⟩ := h.leafMade hw hx hm hl
    refine ⟨h2, ?_⟩
    rw [← h1]
    exact h.out hsub hx a (fun m' heq => by cases heq; exact hl)
  · intro t ht hno
    obtain ⟨i, v, hv, rfl⟩ := hnov t ht hno
    obtain ⟨h1, h2, h3, -⟩ := h.sound.novel i v hv
    refine ⟨h1, h2, h3, ?_⟩
    have := h.out hsub hx a (t := .new v) (fun m heq => by cases heq)
    rw [h.sound.madeNew i v hv] at this
    exact this

/-- So are the calls. -/
theorem Final.called (h : Final b g x hn ns s) (hw : g.WF) (hx : Sorted b g hn x) (a : Addr N V) :
    Called b g .old (result b g a x s) (callsOf s) := by
  refine ⟨?_, fun m _ hm => h.full.callOld m (.inr hm), fun m hm hl => (h.leafMade hw hx hm hl).2.2.1, fun m hm hl => (h.leafMade hw hx hm hl).2.2.2, ?_⟩
  · intro t ht hno
    rcases (h.mem hw hx t).1 ht with ⟨m, hm, rfl⟩ | ⟨i, v, hv, rfl⟩
    · exact absurd rfl (hno m hm)
    · exact h.full.callNew i v hv
  · intro t ht
    have hno : ¬ Has g ns t := fun h1 => ht ((h.mem hw hx t).2 h1)
    rcases t with m | v
    · exact h.full.callOld m (.inl fun hm => hno (.inl ⟨m, hm, rfl⟩))
    · exact h.full.callNo v fun i hv => hno (.inr ⟨i, v, hv, rfl⟩)

/-- The vertex limit is observed. -/
theorem Final.fits (h : Final b g x hn ns s) (hw : g.WF) (hx : Sorted b g hn x) (a : Addr N V) (hl : b.limit n ≠ 0) :
    Fits b g .old (result b g a x s) n (b.limit n) := by
  intro c ts hnd hts
  have key : ∀ t ∈ ts, ∃ i, ∃ v ∈ ns i, t = .new v ∧ i.val = c := by
    intro t ht
    obtain ⟨h1, h2, h3⟩ := hts t ht
    rcases (h.mem hw hx t).1 h1 with ⟨m, hm, rfl⟩ | ⟨i, v, hv, rfl⟩
    · exact absurd rfl (h2 m hm)
    · refine ⟨i, v, hv, rfl, ?_⟩
      rw [← h3, ← (h.sound.novel i v hv).2.2.2]
      rfl
  by_cases hc : c < n
  · refine Nat.le_trans ?_ (h.sound.count hl ⟨c, hc⟩).1
    rw [← List.length_map (f := (Nd.new : V → Nd N V))]
    refine (hnd.subperm ?_).length_le
    intro t ht
    obtain ⟨i, v, hv, rfl, hi⟩ := key t ht
    have : i = ⟨c, hc⟩ := Fin.ext hi
    subst this
    exact List.mem_map.2 ⟨v, hv, rfl⟩
  · rcases ts with _ | ⟨t, ts⟩
    · simp
    · obtain ⟨i, -, -, -, hi⟩ := key t (by simp)
      exact absurd (hi ▸ i.isLt) hc

theorem ends_inv (hb : b.Sane) (hsub : b.sub = false) (hw : g.WF) (hd : Distinct b g) (hx : Sorted b g hn x) {a : Addr N V} (h : Ends b g a x hn s) :
    Inv b g x hn s 0 := by
  obtain ⟨z, h1, h2, rfl⟩ := h
  exact inv_reach hb hsub hw hd hx a (Rover.done_bag hn h1 h2)

theorem ends_final (hb : b.Sane) (hsub : b.sub = false) (hw : g.WF) (hd : Distinct b g) (hx : Sorted b g hn x) {a : Addr N V} (h : Ends b g a x hn s)
    (hs : status s = 0) (hk : s.killed = 0) : ∃ ns, Final b g x hn ns s := by
  obtain ⟨ns, h1, h2⟩ := ends_inv hb hsub hw hd hx h
  exact ⟨ns, h1, h2 ⟨hk, status_zero.1 hs⟩⟩

/-- A kill that nobody asked for comes with an error. -/
def Blame (s : Job n N V L) : Prop := s.killed ≠ 0 → s.asked = true ∨ ∃ i, s.err i ≠ 0

omit [DecidableEq N] [DecidableEq V] in
theorem blame_err {s : Job n N V L} (i : Fin n) (h : s.err i ≠ 0) : Blame s := fun _ => .inr ⟨i, h⟩

omit [DecidableEq N] [DecidableEq V] in
theorem raise_err (s : Job n N V L) (i : Fin n) {e : Int} (he : e ≠ 0) : (raise s i e).err i ≠ 0 := by
  unfold raise
  dsimp only
  rw [Function.update_self]
  split_ifs with h
  · exact he
  · exact h

theorem blame_known (hsub : b.sub = false) (a : Addr N V) (i : Fin n) (m : N) (l : Option L) (h : Blame s) : Blame (breakOut b g a x i s m l).1 := by
  rw [breakOut_eq hsub]
  split_ifs with h1 h2 h3
  · exact blame_err i h2
  · exact h
  · exact blame_err i (raise_err _ i h3)
  · exact h

theorem blame_new (i : Fin n) (v : V) (l : L) (t : Nd N V) (j : Nat) (h : Blame s) : Blame (reachNew b i s v l t j).1 := by
  unfold reachNew
  dsimp only
  split_ifs with h1
  · exact blame_err i (raise_err _ i h1)
  · exact h

theorem blame_fresh (hsub : b.sub = false) (i : Fin n) (v : V) (l : L) (t : Nd N V) (j : Nat) (h : Blame s) : Blame (admit b g i s v l t j).1 := by
  unfold admit
  by_cases hstop : s.err i ≠ 0 ∨ s.stop i = true
  · rw [if_pos hstop]
    rcases hstop with h1 | h1
    · exact blame_err i h1
    · intro h2
      have : (discard s i).killed = s.killed := by unfold discard; dsimp only; rw [if_pos h1]
      rw [this] at h2
      exact h h2
  · rw [if_neg hstop]
    split
    · split
      · unfold reachExtant
        dsimp only
        rw [if_pos (.inl hsub)]
        exact h
      · exact h
    · dsimp only
      split_ifs
      · exact blame_new i v l t j h
      · exact blame_new i v l t j h
      · refine blame_err i ?_
        show (poll (raise _ i intOvf) i).err i ≠ 0
        rw [(Alike.poll _ i).err]
        exact raise_err _ i (by decide)

theorem blame_reach (hsub : b.sub = false) (a : Addr N V)
    {y : Job n N V L × Multiset (Pkt N V L)} (h : Bag.Reach (task b g a x hn) (.known g.base none) (start x) y) : Blame y.1 := by
  induction h with
  | init => intro h; exact absurd rfl h
  | step hr hs ih =>
    cases hs with
    | env e s m => exact fun _ => .inl rfl
    | handle s p rest =>
      show Blame (handle b g a x (lane hn (hashOf b g p)) s p).1
      have h1 : Blame (begin x (poll s (lane hn (hashOf b g p))) (lane hn (hashOf b g p))).1 := by
        have h2 : Blame (poll s (lane hn (hashOf b g p))) := by
          unfold poll
          split_ifs
          · exact ih
          · exact ih
        unfold begin
        split_ifs
        · exact h2
        · exact h2
      unfold handle
      dsimp only
      rcases p with ⟨m, l⟩ | ⟨v, l, t, j⟩
      · exact blame_known hsub a _ m l h1
      · exact blame_fresh hsub _ v l t j h1

end Cru.Spread
