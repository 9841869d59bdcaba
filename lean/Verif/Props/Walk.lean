import Verif.Spec.Walk
import Verif.Props.Stretch

/-! # C168: the words of stretched graphs -/

namespace Cru.Stretch

open Dedup Net

variable {n k : Nat} {N V L P : Type} [DecidableEq V] [DecidableEq L] {o : Orders V L} {x : Stretcher V L P} {hn : 0 < n} {killable : Bool} {g : Gr N V L} {N' : Type} {r : Gr N' V L}
  {ask : N → L × N → Answer V L} {mid : N → L × N → Req V L}

private theorem closed (h : Covers (r.next false) r.base r.nodes) {c : N'} (hc : c ∈ r.nodes) {e : L × N'} (he : e ∈ r.out c) : e.2 ∈ r.nodes :=
  (h.mem _).2 (((h.mem _).1 hc).tail (List.mem_map.2 ⟨e, he, rfl⟩))

private theorem base_mem (h : Covers (r.next false) r.base r.nodes) : r.base ∈ r.nodes := (h.mem _).2 .refl

private theorem walk_of {old : N → N'} (ho : o.Lawful) (h : Expands o g ask old r) {c d : N'} {w : List L} (hs : Spells r.out c w d) (hc : c ∈ r.nodes) {u : V}
    (hu : o.Same u (r.vertex c)) : Walk o g ask u w (r.vertex d) := by
  induction hs generalizing u with
  | nil => exact .nil hu
  | cons he _ ih =>
    obtain ⟨u', t, h1, h2, h3⟩ := h.sound _ hc _ he
    exact .cons (ho.vertex.trans _ _ _ hu (ho.vertex.symm _ _ h2)) h1 (ih (closed h.reach hc he) h3)

private theorem of_walk {old : N → N'} (ho : o.Lawful) (h : Expands o g ask old r) {u v : V} {w : List L} (hs : Walk o g ask u w v) {c : N'} (hc : c ∈ r.nodes)
    (hu : o.Same u (r.vertex c)) : ∃ w' d, Alike o.leq w' w ∧ Spells r.out c w' d ∧ o.Same v (r.vertex d) := by
  induction hs generalizing c with
  | nil h1 => exact ⟨[], c, .nil, .nil _, ho.vertex.trans _ _ _ (ho.vertex.symm _ _ h1) hu⟩
  | cons h1 h2 _ ih =>
    obtain ⟨e, h3, h4, h5⟩ := h.complete c hc _ _ _ h2 (ho.vertex.trans _ _ _ (ho.vertex.symm _ _ h1) hu)
    obtain ⟨w', d, h6, h7, h8⟩ := ih (closed h.reach hc h3) h5
    exact ⟨e.1 :: w', d, .cons h4 h6, .cons h3 h7, h8⟩

/-- **C168.** Paths from the base of a graph stretched in one pass are those that consist of edges that haven't been deleted and edges to and from vertices that have been
passed to `cru_stretch`. -/
theorem C168_paths (ho : o.Lawful) (hw : g.WF) (hd : Distinct o g) (hx : x.fix = false) (hk : killable = true → n = 1)
    (h : Stretched o x (limitOf k n) hn killable g (.ok r)) :
    ∃ (_ : DecidableEq N) (inc : N → List (L × N)), ({ g with inn := inc } : Gr N V L).Duplex ∧
      (∀ w c, Cru.Ends r w c → Walk o g (x.ask g inc) (g.vertex g.base) w (r.vertex c)) ∧
      ∀ w v, Walk o g (x.ask g inc) (g.vertex g.base) w v → ∃ w' c, Alike o.leq w' w ∧ Cru.Ends r w' c ∧ o.Same v (r.vertex c) := by
  obtain ⟨hdec, inc, old, hdu, hp⟩ := C36_pass ho hw hd hx hk h
  have hb : o.Same (g.vertex g.base) (r.vertex r.base) := by rw [hp.base, hp.vertex]; exact ho.vertex.refl _
  exact ⟨hdec, inc, hdu, fun w c hs => walk_of ho hp hs (base_mem hp.reach) hb, fun w v hs => of_walk ho hp hs (base_mem hp.reach) hb⟩

private theorem same_node (ho : o.Lawful) (hd : Distinct o g) {a b : N} (ha : a ∈ g.nodes) (hb : b ∈ g.nodes) (h : o.Same (g.vertex a) (g.vertex b)) : a = b := by
  by_contra hne
  have : Std.Symm fun a b => ¬ o.Same (g.vertex a) (g.vertex b) := ⟨fun _ _ h h' => h (ho.vertex.symm _ _ h')⟩
  exact List.Pairwise.forall hd ha hb hne h

private theorem node_closed (hw : g.WF) {a : N} (ha : a ∈ g.nodes) {e : L × N} (he : e ∈ g.out a) : e.2 ∈ g.nodes :=
  (hw.reach _).2 (((hw.reach _).1 ha).tail (List.mem_map.2 ⟨e, he, rfl⟩))

private theorem trail_of (ho : o.Lawful) (hw : g.WF) (hd : Distinct o g) (hs : Subdivides o g ask mid) :
    ∀ (j : Nat) {w : List L}, w.length ≤ j → ∀ {u v : V} {a m : N}, a ∈ g.nodes → m ∈ g.nodes → o.Same u (g.vertex a) → o.Same v (g.vertex m) →
      Walk o g ask u w v → ∃ p, Spells (steps g) a p m ∧ w = doubled mid p := by
  intro j
  induction j with
  | zero =>
    intro w hj u v a m ha hm hu hv hwk
    cases hwk with
    | nil h1 =>
      have := same_node ho hd ha hm (ho.vertex.trans _ _ _ (ho.vertex.symm _ _ hu) (ho.vertex.trans _ _ _ h1 hv))
      subst this
      exact ⟨[], .nil _, rfl⟩
    | cons => simp at hj
  | succ j ih =>
    intro w hj u v a m ha hm hu hv hwk
    cases hwk with
    | nil h1 =>
      have := same_node ho hd ha hm (ho.vertex.trans _ _ _ (ho.vertex.symm _ _ hu) (ho.vertex.trans _ _ _ h1 hv))
      subst this
      exact ⟨[], .nil _, rfl⟩
    | cons h1 h2 h3 =>
      have hau := ho.vertex.trans _ _ _ (ho.vertex.symm _ _ hu) h1
      cases h2 with
      | keep h4 h5 h6 => rw [hs.delete _ h4 _ h5] at h6; cases h6
      | @post b e q h4 h5 h6 =>
        rw [hs.reqs _ h4 _ h5, List.mem_singleton] at h6
        subst h6
        exact absurd (ho.vertex.symm _ _ hau) (hs.fresh _ h4 _ h5 _ ha)
      | @ante b e q h4 h5 h6 =>
        have := same_node ho hd ha h4 hau
        subst this
        rw [hs.reqs _ h4 _ h5, List.mem_singleton] at h6
        subst h6
        cases h3 with
        | nil h7 => exact absurd (ho.vertex.trans _ _ _ h7 hv) (hs.fresh _ h4 _ h5 _ hm)
        | cons h7 h8 h9 =>
          cases h8 with
          | keep h10 h11 h12 => rw [hs.delete _ h10 _ h11] at h12; cases h12
          | ante h10 h11 h12 => exact absurd h7 (hs.fresh _ h4 _ h5 _ h10)
          | @post b f q h10 h11 h12 =>
            rw [hs.reqs _ h10 _ h11, List.mem_singleton] at h12
            subst h12
            obtain ⟨rfl, rfl⟩ := hs.apart _ h4 _ h5 _ h10 _ h11 h7
            obtain ⟨p, h13, rfl⟩ := ih (by simp at hj ⊢; omega) (node_closed hw h4 h5) hm (ho.vertex.refl _) hv h9
            exact ⟨(a, e) :: p, .cons (List.mem_map.2 ⟨e, h5, rfl⟩) h13, rfl⟩

private theorem walk_of_trail (ho : o.Lawful) (hw : g.WF) (hs : Subdivides o g ask mid) {a m : N} {p : List (N × L × N)} (h : Spells (steps g) a p m) (ha : a ∈ g.nodes) :
    Walk o g ask (g.vertex a) (doubled mid p) (g.vertex m) := by
  induction h with
  | nil => exact .nil (ho.vertex.refl _)
  | @cons b _ _ _ _ he _ ih =>
    obtain ⟨e, h1, h2⟩ := List.mem_map.1 he
    injection h2 with h2 h3
    subst h2 h3
    have hm : mid b e ∈ (ask b e).reqs := by rw [hs.reqs _ ha _ h1]; exact List.mem_singleton.2 rfl
    exact .cons (ho.vertex.refl _) (.ante ha h1 hm) (.cons (ho.vertex.refl _) (.post ha h1 hm) (ih (node_closed hw ha h1)))

/-- **C168.** If each edge is replaced by a path of two edges by way of a vertex of its own, then the words ending at vertices of the given graph are those obtained from the
paths in the given graph by replacing each edge by the two labels passed to `cru_stretch` with it, up to equality of labels. -/
theorem C168_subdivided (ho : o.Lawful) (hw : g.WF) (hd : Distinct o g) (hx : x.fix = false) (hk : killable = true → n = 1)
    (hs : ∀ inc, Subdivides o g (x.ask g inc) mid) (h : Stretched o x (limitOf k n) hn killable g (.ok r)) {m : N} (hm : m ∈ g.nodes) :
    (∀ w c, Cru.Ends r w c → o.Same (r.vertex c) (g.vertex m) → ∃ p, Spells (steps g) g.base p m ∧ w = doubled mid p) ∧
    ∀ p, Spells (steps g) g.base p m → ∃ w c, Alike o.leq w (doubled mid p) ∧ Cru.Ends r w c ∧ o.Same (r.vertex c) (g.vertex m) := by
  obtain ⟨-, inc, -, h1, h2⟩ := C168_paths ho hw hd hx hk h
  have hb : g.base ∈ g.nodes := (hw.reach _).2 .refl
  refine ⟨fun w c hc hv => trail_of ho hw hd (hs inc) _ (Nat.le_refl _) hb hm (ho.vertex.refl _) hv (h1 w c hc), fun p hp => ?_⟩
  obtain ⟨w', c, h3, h4, h5⟩ := h2 _ _ (walk_of_trail ho hw (hs inc) hp hb)
  exact ⟨w', c, h3, h4, ho.vertex.symm _ _ h5⟩

/-- Replace each edge of `pair` by two by way of an odd vertex, the first with the same label and the second with the opposite one. -/
def splicer : Stretcher Nat Bool Nat := ⟨false, fun p l q => ⟨0, true, [⟨l, 3 * p + 2 * q + 1, !l⟩]⟩, fun v _ _ => v⟩

theorem splicer_subdivides (inc : Nat → List (Bool × Nat)) :
    Subdivides plain pair (splicer.ask pair inc) fun m e => ⟨e.1, 3 * (2 * m) + 2 * (2 * e.2) + 1, !e.1⟩ where
  delete _ _ _ _ := rfl
  reqs _ _ _ _ := rfl
  fresh := by unfold Orders.Same plain; decide
  apart := by unfold Orders.Same plain; decide

theorem splicer_requested {inc : Nat → List (Bool × Nat)} {v : Nat} (h : Requested pair (splicer.ask pair inc) v) : v % 2 = 1 := by
  obtain ⟨m, hm, e, he, q, hq, rfl⟩ := h
  rw [(splicer_subdivides inc).reqs m hm e he, List.mem_singleton] at hq
  subst hq
  dsimp only
  omega

theorem splicer_safe (inc : Nat → List (Bool × Nat)) : ¬ Clash plain pair (splicer.ask pair inc) := by
  rintro ⟨m, hm, w, hw, i, j, k, l, e, f, q, r, h1, h2, h3, h4, -, -, -, h5⟩
  have := splicer_requested ⟨m, hm, e, List.mem_of_getElem? h1, q, List.mem_of_getElem? h3, rfl⟩
  have h6 : q.vertex = 2 * w := by simpa [Orders.Same, plain, pair] using h5
  omega

theorem splicer_fine (inc : Nat → List (Bool × Nat)) (e : Int) : ¬ Raised plain pair (splicer.ask pair inc) e := by
  rintro ⟨h0, ⟨m, -, f, -, h⟩ | ⟨u, w, -, -, h⟩⟩
  · exact h0 h.symm
  · exact h0 h.symm

/-- Non-vacuity of C168: the cycle of two vertices becomes one of four. -/
example (hn : 0 < n) : ∃ (N' : Type) (r : Gr N' Nat Bool), Stretched plain splicer (limitOf 0 n) hn false pair (.ok r) ∧
    (∃ c, Cru.Ends r [true, false, false, true] c ∧ r.vertex c = 0) ∧ ¬ ∃ c, Cru.Ends r [true, false, false] c ∧ r.vertex c = 0 := by
  obtain ⟨inc, hi⟩ := exists_duplex pair pair_wf.nodup
  obtain ⟨y, hy⟩ := C36_exists (x := splicer) (k := 0) (hn := hn) plain_lawful address_injective pair_wf pair_distinct rfl hi
  obtain ⟨N', r, rfl⟩ := succeeds plain_lawful pair_wf pair_distinct rfl (fun _ _ => ⟨splicer_safe _, splicer_fine _⟩) hy
  refine ⟨N', r, hy, ?_⟩
  obtain ⟨h1, h2⟩ := C168_subdivided (x := splicer) (m := 0) plain_lawful pair_wf pair_distinct rfl (by intro h; cases h) splicer_subdivides hy (by decide)
  refine ⟨?_, ?_⟩
  · obtain ⟨w, c, h3, h4, h5⟩ := h2 [(0, true, 1), (1, false, 0)] (.cons (b := 1) (by decide) (.cons (by decide) (.nil _)))
    have hw : w = [true, false, false, true] := by
      have h6 : List.Forall₂ (fun a b => a = b) w [true, false, false, true] := h3.imp fun a b h => by simpa [plain] using h
      simpa using h6
    subst hw
    exact ⟨c, h4, by simpa [Orders.Same, plain, pair] using h5⟩
  · rintro ⟨c, h3, h4⟩
    obtain ⟨p, -, h5⟩ := h1 _ c h3 (by simp [Orders.Same, plain, pair, h4])
    have h6 : ∀ p, (doubled (fun m e => (⟨e.1, 3 * (2 * m) + 2 * (2 * e.2) + 1, !e.1⟩ : Req Nat Bool)) p).length = 2 * p.length := fun p => by
      induction p with
      | nil => rfl
      | cons s p ih =>
        unfold doubled at ih ⊢
        rw [List.flatMap_cons, List.length_append, ih, List.length_cons, List.length_cons, List.length_cons, List.length_nil]
        omega
    have h7 := congrArg List.length h5
    rw [h6] at h7
    simp at h7
    omega

end Cru.Stretch
