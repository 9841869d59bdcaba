import Verif.Proofs.SpreadInv
import Verif.Proofs.BuildCalls

/-! # Steps of the spreading task -/

namespace Cru.Spread

open Net Build

variable {n : Nat} {N V L : Type} {b : Builder V L} {g : Gr N V L} {hn : 0 < n}
variable [DecidableEq N] [DecidableEq V] {x : Pre n N L} {s : Job n N V L} {bag : Multiset (Pkt N V L)}

omit [DecidableEq N] [DecidableEq V] in
/-- Errors. -/
theorem sound_fail {ns : Fin n → List V} (h : Sound b g x hn ns s bag) (i : Fin n) {e : Int} (he : e ≠ 0)
    (hr : Raised b g e ∨ e = intOvf ∧ b.limit n ≠ 0 ∧ Crowded b g n (b.limit n)) (c : Fin n → List (Nd N V × Incident L)) (k : Fin n → Nat)
    (hk : ∀ j, s.count j ≤ k j ∧ (j ≠ i → k j = s.count j)) :
    Sound b g x hn ns { s with calls := c, err := Function.update s.err i e, count := k } bag := by
  refine ⟨h.tab, h.queue, h.idle, h.novel, h.apart, h.madeNew, h.madeNo, h.madeOld, h.link, h.known, h.fresh, h.reach, ?_, ?_, h.halt, h.base, h.closed⟩
  · intro j
    by_cases hj : j = i
    · subst hj; simp only [Function.update_self]; exact fun _ => hr
    · simp only [Function.update_of_ne hj]; exact h.err j
  · intro hl j
    obtain ⟨h1, h2, h3⟩ := h.count hl j
    refine ⟨h1, h2.trans (hk j).1, ?_⟩
    by_cases hj : j = i
    · subst hj; simp only [Function.update_self]; exact fun h4 => absurd h4 he
    · simp only [Function.update_of_ne hj]; intro h4; rw [(hk j).2 hj]; exact h3 h4

omit [DecidableEq N] [DecidableEq V] in
/-- No two nodes have equal vertices. -/
theorem has_unique {ns : Fin n → List V} (hb : b.Sane) (hd : Distinct b g) (h : Sound b g x hn ns s bag) {t u : Nd N V} (ht : Has g ns t) (hu : Has g ns u)
    (he : b.vEq (vertex g t) (vertex g u) = true) : t = u := by
  rcases ht with ⟨m, hm, rfl⟩ | ⟨i, v, hv, rfl⟩
  · rcases hu with ⟨m', hm', rfl⟩ | ⟨i', v', hv', rfl⟩
    · rw [hd m hm m' hm' he]
    · have := (h.novel i' v' hv').1 m hm
      rw [show b.vEq v' (g.vertex m) = true from hb.v.symm _ _ he] at this
      exact absurd this (by decide)
  · rcases hu with ⟨m', hm', rfl⟩ | ⟨i', v', hv', rfl⟩
    · have := (h.novel i v hv).1 m' hm'
      rw [show b.vEq v (g.vertex m') = true from he] at this
      exact absurd this (by decide)
    · have h1 := (h.novel i v hv).2.2.2
      have h2 := (h.novel i' v' hv').2.2.2
      have he' : b.vEq v v' = true := he
      have h3 : i = i' := by rw [← h1, ← h2]; exact spot_eq hb he'
      subst h3
      by_contra hne
      have hne' : v ≠ v' := fun h => hne (by rw [h])
      haveI : Std.Symm fun v w => b.vEq v w = false :=
        ⟨fun a c h => by
          rw [Bool.eq_false_iff] at h ⊢
          exact fun h' => h (hb.v.symm _ _ h')⟩
      have := (h.apart i).forall hv hv' hne'
      rw [he'] at this
      exact absurd this (by decide)

omit [DecidableEq N] [DecidableEq V] in
theorem entry_has {ns : Fin n → List V} (h : Sound b g x hn ns s bag) (hx : Sorted b g hn x) {i : Fin n} {e : Entry N V L} (he : e ∈ s.tab i) :
    Has g ns e.node := by
  rw [h.tab, List.mem_append, List.mem_map, List.mem_map] at he
  rcases he with ⟨m, hm, rfl⟩ | ⟨v, hv, rfl⟩
  · exact .inl ⟨m, ((hx.mem i m).1 hm).1, rfl⟩
  · exact .inr ⟨i, v, hv, rfl⟩

theorem breakOut_eq (hsub : b.sub = false) (a : Addr N V) (i : Fin n) (m : N) (l : Option L) : breakOut b g a x i s m l =
    if x.out m ≠ [] ∨ s.made (.old m) ≠ [] ∨ s.err i ≠ 0 then (if s.err i ≠ 0 then discard s i else s, [])
    else if (b.connect .whole (g.vertex m)).1 ≠ 0 then (discard (raise (hand s i (.old m) .whole) i (b.connect .whole (g.vertex m)).1) i, [])
    else ({ hand s i (.old m) .whole with made := Function.update s.made (.old m) (b.connect .whole (g.vertex m)).2 },
        scatterOut (.old m) 0 (b.connect .whole (g.vertex m)).2) := by
  unfold breakOut
  simp only [hsub]
  rcases l with _ | l <;> rfl

/-- A packet for a known node. -/
theorem inv_known (hb : b.Sane) (hsub : b.sub = false) (hx : Sorted b g hn x) (a : Addr N V) {m : N} {l : Option L}
    (h : Inv b g x hn s (.known m l ::ₘ bag)) (hi : s.started (spot b hn (g.vertex m)) = true) :
    Inv b g x hn (breakOut b g a x (spot b hn (g.vertex m)) s m l).1 ((breakOut b g a x (spot b hn (g.vertex m)) s m l).2 + bag) := by
  obtain ⟨ns, h1, h2⟩ := h
  have hS := sound_skip h1 hi
  have hm : m ∈ g.nodes := h1.known m l (by simp)
  set i := spot b hn (g.vertex m) with hidef
  rw [breakOut_eq hsub, hx.out]
  by_cases he : s.err i = 0
  · by_cases hc : g.out m ≠ [] ∨ s.made (.old m) ≠ []
    · rw [if_pos (by tauto), if_neg (by simp [he])]
      refine ⟨ns, by simpa using hS, fun hf => ?_⟩
      have h3 := h2 hf
      refine ⟨?_, ?_, h3.code, h3.callNew, h3.callNo, h3.callOld⟩
      · intro t j e hte
        rcases h3.pend t j e hte with h4 | h4
        · exact .inl h4
        · simp at h4; exact .inr (by simp [h4])
      · intro m' hm' hl'
        rcases h3.leaf m' hm' hl' with h4 | ⟨h4, h5, h6⟩
        · exact .inl h4
        · refine .inr ⟨h4, h5, ?_⟩
          rw [← h6, hits_known, if_neg (by rintro rfl; tauto)]
          simp
    · push Not at hc
      rw [if_neg (by simp [he, hc.1, hc.2])]
      by_cases hcode : (b.connect .whole (g.vertex m)).1 = 0
      · rw [if_neg (by simp [hcode])]
        have hno : ∀ j : Nat, (s.made (.old m))[j]? = none := by intro j; rw [hc.2]; rfl
        refine ⟨ns, ⟨hS.tab, hS.queue, hS.idle, hS.novel, hS.apart, ?_, ?_, ?_, ?_, ?_, ?_, hS.reach, hS.err, hS.count, hS.halt, ?_, ?_⟩, ?_⟩
        · intro j v hv
          dsimp only
          rw [Function.update_of_ne (by simp)]; exact hS.madeNew j v hv
        · intro v hv
          dsimp only
          rw [Function.update_of_ne (by simp)]; exact hS.madeNo v hv
        · intro m'
          by_cases hmm : m' = m
          · subst hmm
            dsimp only
            rw [Function.update_self]
            exact .inr ⟨hm, hc.1, hcode, rfl⟩
          · dsimp only
            rw [Function.update_of_ne (by simp [hmm])]; exact hS.madeOld m'
        · intro t j u htu
          obtain ⟨h3, e, h4, h5⟩ := hS.link t j u htu
          refine ⟨h3, e, ?_, h5⟩
          by_cases hmt : t = .old m
          · rw [hmt, hno] at h4; exact absurd h4 (by simp)
          · dsimp only; rw [Function.update_of_ne hmt]; exact h4
        · intro m' l' hm'
          rw [Multiset.mem_add] at hm'
          rcases hm' with h3 | h3
          · rw [Multiset.mem_coe, mem_scatter] at h3
            obtain ⟨j, e, -, h4⟩ := h3; cases h4
          · exact hS.known m' l' h3
        · intro v l' t j hm'
          rw [Multiset.mem_add] at hm'
          rcases hm' with h3 | h3
          · rw [Multiset.mem_coe, mem_scatter] at h3
            obtain ⟨k, e, h4, h5⟩ := h3
            cases h5
            dsimp only
            rw [Function.update_self, zero_add]; exact h4
          · have h4 := hS.fresh v l' t j h3
            by_cases hmt : t = .old m
            · rw [hmt, hno] at h4; exact absurd h4 (by simp)
            · dsimp only; rw [Function.update_of_ne hmt]; exact h4
        · rcases hS.base with h3 | ⟨l', h3⟩
          · exact .inl h3
          · exact .inr ⟨l', by simp [h3]⟩
        · intro c hcm hs d hdm
          rcases hS.closed c hcm hs d hdm with h3 | ⟨l', h3⟩
          · exact .inl h3
          · exact .inr ⟨l', by simp [h3]⟩
        · intro hf
          have h3 := h2 hf
          have hcalls : ∀ u, callsOf { hand s i (.old m) .whole with made := Function.update s.made (.old m) (b.connect .whole (g.vertex m)).2 } u =
              callsOf s u + if u = .old m then 1 else 0 := fun u => calls_hand s i (.old m) u .whole
          refine ⟨?_, ?_, ?_, ?_, ?_, ?_⟩
          · intro t j e hte
            by_cases hmt : t = .old m
            · subst hmt
              dsimp only at hte
              rw [Function.update_self] at hte
              right
              rw [Multiset.mem_add, Multiset.mem_coe, mem_scatter]
              exact .inl ⟨j, e, hte, by rw [zero_add]⟩
            · dsimp only at hte
              rw [Function.update_of_ne hmt] at hte
              rcases h3.pend t j e hte with h4 | h4
              · exact .inl h4
              · simp at h4; exact .inr (by simp [h4])
          · intro m' hm' hl'
            rw [hcalls]
            dsimp only
            by_cases hmm : m' = m
            · subst hmm
              rw [Function.update_self, if_pos rfl]
              rcases h3.leaf m' hm' hl' with ⟨h4, h5, -⟩ | ⟨h4, h5, h6⟩
              · rw [hc.2] at h5; exact absurd h5.symm h4
              · by_cases hC : (b.connect .whole (g.vertex m')).2 = []
                · refine .inr ⟨hC, .inl hC, ?_⟩
                  rw [← h6, hits_known, if_pos rfl, hits_add, hits_scatter]
                  show callsOf s (.old m') + 1 + (0 + hits bag m') + unsent x s m' = _
                  omega
                · have := h5.resolve_left hC
                  exact .inl ⟨hC, rfl, by rw [this]⟩
            · rw [Function.update_of_ne (by simp [hmm]), if_neg (by simp [hmm])]
              rcases h3.leaf m' hm' hl' with h4 | ⟨h4, h5, h6⟩
              · exact .inl h4
              · refine .inr ⟨h4, h5, ?_⟩
                rw [← h6, hits_known, if_neg hmm, hits_add, hits_scatter]
                show callsOf s (.old m') + 0 + (0 + hits bag m') + unsent x s m' = _
                omega
          · intro m' hm'
            rw [hcalls]
            by_cases hmm : m' = m
            · subst hmm; exact fun _ => hcode
            · rw [if_neg (by simp [hmm])]; exact h3.code m' hm'
          · intro j v hv
            rw [hcalls, if_neg (by simp)]; exact h3.callNew j v hv
          · intro v hv
            rw [hcalls, if_neg (by simp)]; exact h3.callNo v hv
          · intro m' hm'
            rw [hcalls, if_neg (by
              intro heq
              cases heq
              rcases hm' with h4 | h4
              · exact h4 hm
              · exact h4 hc.1)]
            exact h3.callOld m' hm'
      · rw [if_pos hcode]
        rw [Multiset.coe_nil, zero_add]
        refine inv_discard (ns := ns) ?_ i
        have := sound_fail (e := (b.connect .whole (g.vertex m)).1) hS i hcode (.inl ⟨hcode, g.vertex m, .leaf hm hc.1, rfl⟩)
          (hand s i (.old m) .whole).calls s.count (fun j => ⟨le_rfl, fun _ => rfl⟩)
        refine this.alike ⟨rfl, rfl, rfl, rfl, rfl, rfl, ?_, rfl⟩ hS.halt
        show Function.update s.err i (if s.err i = 0 then _ else s.err i) = _
        rw [if_pos he]
  · rw [if_pos (.inr (.inr he)), if_pos he, Multiset.coe_nil, zero_add]
    exact inv_discard hS i

omit [DecidableEq N] [DecidableEq V] in
/-- Every vertex passed to `cru_connect` comes from a vertex that the connector can be called on. -/
theorem due_edge {ns : Fin n → List V} (hb : b.Sane) (h : Sound b g x hn ns s bag) {t : Nd N V} {j : Nat} {l : L} {v : V} (he : (s.made t)[j]? = some (l, v)) :
    Has g ns t ∧ ∃ u, Due b g u ∧ (b.connect .whole u).1 = 0 ∧ (l, v) ∈ (b.connect .whole u).2 := by
  have hm := List.mem_of_getElem? he
  rcases t with m | w
  · rcases h.madeOld m with h1 | ⟨h1, h2, h3, h4⟩
    · rw [h1] at hm; simp at hm
    · rw [h4] at hm; exact ⟨.inl ⟨m, h1, rfl⟩, _, .leaf h1 h2, h3, hm⟩
  · by_cases hw : ∃ i, w ∈ ns i
    · obtain ⟨i, hi⟩ := hw
      rw [h.madeNew i w hi] at hm
      exact ⟨.inr ⟨i, w, hi, rfl⟩, w, (h.novel i w hi).2.1, (h.novel i w hi).2.2.1, mem_uniq hb hm⟩
    · push Not at hw
      rw [h.madeNo w hw] at hm; simp at hm

/-- An edge is given its remote node. -/
theorem inv_link (hb : b.Sane) (hd : Distinct b g) {ns : Fin n → List V} {v : V} {l : L} {t u : Nd N V} {j : Nat}
    (h1 : Sound b g x hn ns s (.fresh v l t j ::ₘ bag)) (h2 : Fine s → Full b g x ns s (.fresh v l t j ::ₘ bag))
    (hi : s.started (spot b hn v) = true) (hu : Has g ns u) (hv : b.vEq v (vertex g u) = true) : Inv b g x hn (setLink s t j u) bag := by
  have hS := sound_skip h1 hi
  have hmade := h1.fresh v l t j (by simp)
  have hget : ∀ t' j', (setLink s t j u).link t' j' = if t' = t ∧ j' = j then some u else s.link t' j' := by
    intro t' j'
    unfold setLink
    dsimp only
    by_cases ht : t' = t
    · subst ht
      rw [Function.update_self]
      by_cases hj : j' = j
      · subst hj; simp
      · rw [Function.update_of_ne hj, if_neg (by tauto)]
    · rw [Function.update_of_ne ht, if_neg (by tauto)]
  have hkeep : ∀ t' j' d, s.link t' j' = some d → (setLink s t j u).link t' j' = some d := by
    intro t' j' d hdl
    rw [hget]
    split_ifs with hh
    · obtain ⟨rfl, rfl⟩ := hh
      obtain ⟨h3, e, h4, h5⟩ := hS.link _ _ d hdl
      rw [hmade] at h4
      cases h4
      rw [has_unique hb hd hS hu h3 (hb.v.trans _ _ _ (hb.v.symm _ _ hv) h5)]
    · exact hdl
  refine ⟨ns, ⟨hS.tab, hS.queue, hS.idle, hS.novel, hS.apart, hS.madeNew, hS.madeNo, hS.madeOld, ?_, hS.known, hS.fresh, ?_, hS.err, hS.count, hS.halt, hS.base,
    hS.closed⟩, ?_⟩
  · intro t' j' d hdl
    rw [hget] at hdl
    split_ifs at hdl with hh
    · obtain ⟨rfl, rfl⟩ := hh
      cases hdl
      exact ⟨hu, (l, v), hmade, hv⟩
    · exact hS.link t' j' d hdl
  · intro i w hw
    refine Relation.ReflTransGen.mono ?_ _ _ (hS.reach i w hw)
    rintro c d (h3 | ⟨k, h3⟩)
    · exact .inl h3
    · exact .inr ⟨k, hkeep _ _ _ h3⟩
  · intro hf
    have h3 := h2 hf
    refine ⟨?_, ?_, h3.code, h3.callNew, h3.callNo, h3.callOld⟩
    · intro t' j' e he
      rcases h3.pend t' j' e he with ⟨d, h4⟩ | h4
      · exact .inl ⟨d, hkeep _ _ _ h4⟩
      · rw [Multiset.mem_cons] at h4
        rcases h4 with h4 | h4
        · cases h4
          exact .inl ⟨u, by rw [hget, if_pos ⟨rfl, rfl⟩]⟩
        · exact .inr h4
    · intro m hm hl
      rcases h3.leaf m hm hl with h4 | ⟨h4, h5, h6⟩
      · exact .inl h4
      · rw [hits_fresh] at h6
        exact .inr ⟨h4, h5, h6⟩

omit [DecidableEq N] [DecidableEq V] in
theorem novel_of_find {ns : Fin n → List V} (hb : b.Sane) (hx : Sorted b g hn x) (h : Sound b g x hn ns s bag) {v : V}
    (hf : ∀ e ∈ s.tab (spot b hn v), b.vEq v (vertex g e.node) = false) :
    Novel b g v ∧ (∀ i, v ∉ ns i) ∧ ∀ w ∈ ns (spot b hn v), b.vEq v w = false := by
  have hns : ∀ w ∈ ns (spot b hn v), b.vEq v w = false := by
    intro w hw
    exact hf ⟨.new w, [.whole]⟩ (by rw [h.tab, List.mem_append]; exact .inr (List.mem_map.2 ⟨w, hw, rfl⟩))
  refine ⟨?_, ?_, hns⟩
  · intro m hm
    by_contra hne
    have he : b.vEq v (g.vertex m) = true := by simpa using hne
    have hs : spot b hn (g.vertex m) = spot b hn v := (spot_eq hb he).symm
    have := hf ⟨.old m, []⟩ (by rw [h.tab, List.mem_append]; exact .inl (List.mem_map.2 ⟨m, (hx.mem _ _).2 ⟨hm, hs⟩, rfl⟩))
    rw [show b.vEq v (vertex g (.old m)) = true from he] at this
    exact absurd this (by decide)
  · intro i hi
    have hs := (h.novel i v hi).2.2.2
    rw [← hs] at hi
    have := hns v hi
    rw [hb.v.refl] at this
    exact absurd this (by decide)

omit [DecidableEq N] [DecidableEq V] in
theorem old_reach (hw : g.WF) (m : N) (hm : m ∈ g.nodes) : Relation.ReflTransGen (Arc g s) (.old g.base) (.old m) := by
  have := (hw.reach m).1 hm
  clear hm
  induction this with
  | refl => exact .refl
  | @tail c d _ hcd ih =>
    unfold Gr.next at hcd
    rw [if_neg (by decide), List.mem_map] at hcd
    obtain ⟨e, he, rfl⟩ := hcd
    exact ih.tail (.inl ⟨c, e, he, rfl, rfl⟩)

/-- A node is made for a new vertex. -/
theorem inv_new (hb : b.Sane) (hsub : b.sub = false) (hwf : g.WF) (hd : Distinct b g) (hx : Sorted b g hn x) {ns : Fin n → List V} {v : V} {l : L} {t : Nd N V} {j : Nat}
    (h1 : Sound b g x hn ns s (.fresh v l t j ::ₘ bag)) (h2 : Fine s → Full b g x ns s (.fresh v l t j ::ₘ bag))
    (hi : s.started (spot b hn v) = true) (hf : ∀ e ∈ s.tab (spot b hn v), b.vEq v (vertex g e.node) = false) (he : s.err (spot b hn v) = 0)
    (k : Fin n → Nat) (hk : b.limit n ≠ 0 → s.count (spot b hn v) < b.limit n ∧ k = Function.update s.count (spot b hn v) (s.count (spot b hn v) + 1)) :
    Inv b g x hn (reachNew b (spot b hn v) { s with count := k } v l t j).1
      ((reachNew b (spot b hn v) { s with count := k } v l t j).2 + bag) := by
  have hS := sound_skip h1 hi
  have hmade := h1.fresh v l t j (by simp)
  obtain ⟨hnov, hnot, happ⟩ := novel_of_find hb hx hS hf
  obtain ⟨hht, u, hu1, hu2, hu3⟩ := due_edge hb hS hmade
  have hdue : Due b g v := .novel hu1 hu2 hu3 hnov
  set i := spot b hn v with hidef
  have hal : b.along l = .whole := by unfold Builder.along; rw [if_neg (by simp [hsub])]
  unfold reachNew
  dsimp only
  rw [hal]
  split_ifs with hcode
  · refine ⟨ns, ?_, ?_⟩
    · rw [Multiset.coe_nil, zero_add]
      have := sound_fail (e := (b.connect .whole v).1) hS i hcode (.inl ⟨hcode, v, hdue, rfl⟩) (hand s i (.new v) .whole).calls s.count
        (fun _ => ⟨le_rfl, fun _ => rfl⟩)
      have h3 := sound_fail (e := (b.connect .whole v).1) hS i hcode (.inl ⟨hcode, v, hdue, rfl⟩) (hand s i (.new v) .whole).calls
        (if b.limit n = 0 then s.count else k) (by
          intro j'
          by_cases hl : b.limit n = 0
          · rw [if_pos hl]; exact ⟨le_rfl, fun _ => rfl⟩
          · rw [if_neg hl, (hk hl).2]
            by_cases hj : j' = i
            · subst hj; simp
            · rw [Function.update_of_ne hj]; exact ⟨le_rfl, fun _ => rfl⟩)
      have herr : (raise (hand { s with count := k } i (.new v) .whole) i (b.connect .whole v).1).err = Function.update s.err i (b.connect .whole v).1 := by
        show Function.update s.err i (if s.err i = 0 then _ else s.err i) = _
        rw [if_pos he]
      by_cases hl : b.limit n = 0
      · refine ⟨hS.tab, hS.queue, hS.idle, hS.novel, hS.apart, hS.madeNew, hS.madeNo, hS.madeOld, hS.link, hS.known, hS.fresh, hS.reach, ?_,
          fun h => absurd hl h, hS.halt, hS.base, hS.closed⟩
        rw [herr]; exact this.err
      · rw [if_neg hl] at h3
        exact h3.alike ⟨rfl, rfl, rfl, rfl, rfl, rfl, herr, rfl⟩ hS.halt
    · intro hfine
      have := hfine.2 i
      change Function.update s.err i (if s.err i = 0 then (b.connect .whole v).1 else s.err i) i = 0 at this
      rw [if_pos he, Function.update_self] at this
      exact absurd this hcode
  · push Not at hcode
    set ns' := Function.update ns i (ns i ++ [v]) with hns'
    have hin : ∀ i' w, w ∈ ns' i' ↔ w ∈ ns i' ∨ (i' = i ∧ w = v) := by
      intro i' w
      rw [hns']
      by_cases hj : i' = i
      · subst hj; simp
      · rw [Function.update_of_ne hj]; simp [hj]
    have hhas : ∀ d, Has g ns d → Has g ns' d := by
      rintro d (h3 | ⟨i', w, h3, h4⟩)
      · exact .inl h3
      · exact .inr ⟨i', w, (hin i' w).2 (.inl h3), h4⟩
    set s' : Job n N V L := { s with
      count := k
      calls := Function.update s.calls i (s.calls i ++ [(.new v, .whole)])
      link := Function.update s.link t (Function.update (s.link t) j (some (.new v)))
      tab := Function.update s.tab i (s.tab i ++ [⟨.new v, [.whole]⟩])
      queue := Function.update s.queue i (s.queue i ++ [.new v])
      made := Function.update s.made (.new v) (b.uniq (b.connect .whole v).2) } with hs'
    have hget : ∀ t' j', s'.link t' j' = if t' = t ∧ j' = j then some (.new v) else s.link t' j' := by
      intro t' j'
      rw [hs']
      dsimp only
      by_cases ht : t' = t
      · subst ht
        rw [Function.update_self]
        by_cases hj : j' = j
        · subst hj; simp
        · rw [Function.update_of_ne hj, if_neg (by tauto)]
      · rw [Function.update_of_ne ht, if_neg (by tauto)]
    have hkeep : ∀ t' j' d, s.link t' j' = some d → s'.link t' j' = some d := by
      intro t' j' d hdl
      rw [hget]
      split_ifs with hh
      · obtain ⟨rfl, rfl⟩ := hh
        obtain ⟨h3, e, h4, h5⟩ := hS.link _ _ d hdl
        rw [hmade] at h4
        cases h4
        exfalso
        rcases h3 with ⟨m, hm, rfl⟩ | ⟨i', w, hw, rfl⟩
        · have := hnov m hm
          rw [show b.vEq v (g.vertex m) = true from h5] at this
          exact absurd this (by decide)
        · have h6 := (hS.novel i' w hw).2.2.2
          rw [← spot_eq (hn := hn) hb (show b.vEq v w = true from h5)] at h6
          rw [← h6] at hw
          have := happ w hw
          rw [show b.vEq v w = true from h5] at this
          exact absurd this (by decide)
      · exact hdl
    have hmold : ∀ t', t' ≠ .new v → s'.made t' = s.made t' := by
      intro t' ht
      rw [hs']; dsimp only; rw [Function.update_of_ne ht]
    have hmnew : s'.made (.new v) = b.uniq (b.connect .whole v).2 := by rw [hs']; simp
    have hmv : ∀ j' : Nat, (s.made (.new v))[j']? = none := by intro j'; rw [hS.madeNo v hnot]; rfl
    have hmget : ∀ t' (j' : Nat) e, (s.made t')[j']? = some e → (s'.made t')[j']? = some e := by
      intro t' j' e h3
      by_cases ht : t' = .new v
      · rw [ht, hmv] at h3; exact absurd h3 (by simp)
      · rw [hmold t' ht]; exact h3
    show Inv b g x hn s' (((scatterOut (.new v) 0 (b.uniq (b.connect .whole v).2) : List (Pkt N V L)) : Multiset (Pkt N V L)) + bag)
    have harc : ∀ c d, Arc g s c d → Arc g s' c d := by
      rintro c d (h3 | ⟨j', h3⟩)
      · exact .inl h3
      · exact .inr ⟨j', hkeep _ _ _ h3⟩
    refine ⟨ns', ⟨?_, ?_, ?_, ?_, ?_, ?_, ?_, ?_, ?_, ?_, ?_, ?_, hS.err, ?_, hS.halt, ?_, ?_⟩, ?_⟩
    · intro i'
      rw [hs', hns']
      by_cases hj : i' = i
      · subst hj; simp [hS.tab]
      · dsimp only; rw [Function.update_of_ne hj, Function.update_of_ne hj]; exact hS.tab i'
    · intro i'
      rw [hs', hns']
      by_cases hj : i' = i
      · subst hj; simp [hS.queue, hi]
      · simp only [Function.update_of_ne hj]; exact hS.queue i'
    · intro i' h3
      have hj : i' ≠ i := by rintro rfl; rw [show s'.started i = s.started i from rfl, hi] at h3; exact absurd h3 (by decide)
      rw [hns', Function.update_of_ne hj]; exact hS.idle i' h3
    · intro i' w hw
      rcases (hin i' w).1 hw with h3 | ⟨rfl, rfl⟩
      · exact hS.novel i' w h3
      · exact ⟨hnov, hdue, hcode, rfl⟩
    · intro i'
      rw [hns']
      by_cases hj : i' = i
      · subst hj
        rw [Function.update_self, List.pairwise_append]
        refine ⟨hS.apart _, by simp, ?_⟩
        intro c hc d hdv
        rw [List.mem_singleton] at hdv
        rw [hdv, Bool.eq_false_iff]
        intro h3
        have := happ c hc
        rw [hb.v.symm _ _ h3] at this
        exact absurd this (by decide)
      · rw [Function.update_of_ne hj]; exact hS.apart i'
    · intro i' w hw
      rcases (hin i' w).1 hw with h3 | ⟨rfl, rfl⟩
      · rw [hmold _ (by rintro heq; cases heq; exact hnot i' h3)]; exact hS.madeNew i' w h3
      · exact hmnew
    · intro w hw
      rw [hmold _ (by rintro heq; cases heq; exact hw i ((hin i v).2 (.inr ⟨rfl, rfl⟩)))]
      exact hS.madeNo w fun i' h3 => hw i' ((hin i' w).2 (.inl h3))
    · intro m
      rw [hmold _ (by simp)]; exact hS.madeOld m
    · intro t' j' d hdl
      rw [hget] at hdl
      split_ifs at hdl with hh
      · obtain ⟨rfl, rfl⟩ := hh
        cases hdl
        exact ⟨.inr ⟨i, v, (hin i v).2 (.inr ⟨rfl, rfl⟩), rfl⟩, (l, v), hmget _ _ _ hmade, hb.v.refl v⟩
      · obtain ⟨h3, e, h4, h5⟩ := hS.link t' j' d hdl
        exact ⟨hhas d h3, e, hmget _ _ _ h4, h5⟩
    · intro m l' hm
      rw [Multiset.mem_add] at hm
      rcases hm with h3 | h3
      · rw [Multiset.mem_coe, mem_scatter] at h3
        obtain ⟨j', e, -, h4⟩ := h3; cases h4
      · exact hS.known m l' h3
    · intro w l' t' j' hm
      rw [Multiset.mem_add] at hm
      rcases hm with h3 | h3
      · rw [Multiset.mem_coe, mem_scatter] at h3
        obtain ⟨j'', e, h4, h5⟩ := h3
        cases h5
        rw [hmnew, zero_add]; exact h4
      · exact hmget _ _ _ (hS.fresh w l' t' j' h3)
    · intro i' w hw
      rcases (hin i' w).1 hw with h3 | ⟨rfl, rfl⟩
      · exact Relation.ReflTransGen.mono harc _ _ (hS.reach i' w h3)
      · have ht : Relation.ReflTransGen (Arc g s') (.old g.base) t := by
          rcases hht with ⟨m, hm, rfl⟩ | ⟨i', w', hw', rfl⟩
          · exact old_reach hwf m hm
          · exact Relation.ReflTransGen.mono harc _ _ (hS.reach i' w' hw')
        exact ht.tail (.inr ⟨j, by rw [hget, if_pos ⟨rfl, rfl⟩]⟩)
    · intro hl i'
      obtain ⟨h3, h4, h5⟩ := hS.count hl i'
      obtain ⟨h6, h7⟩ := hk hl
      by_cases hj : i' = i
      · subst hj
        have h8 := h5 he
        show (Function.update ns i (ns i ++ [v]) i).length ≤ _ ∧ (Function.update ns i (ns i ++ [v]) i).length ≤ k i ∧
          (_ → k i = (Function.update ns i (ns i ++ [v]) i).length)
        rw [h7, Function.update_self, Function.update_self, List.length_append, List.length_singleton]
        exact ⟨by omega, by omega, fun _ => by omega⟩
      · show (Function.update ns i (ns i ++ [v]) i').length ≤ _ ∧ (Function.update ns i (ns i ++ [v]) i').length ≤ k i' ∧
          (_ → k i' = (Function.update ns i (ns i ++ [v]) i').length)
        rw [h7, Function.update_of_ne hj, Function.update_of_ne hj]
        exact ⟨h3, h4, h5⟩
    · rcases hS.base with h3 | ⟨l', h3⟩
      · exact .inl h3
      · exact .inr ⟨l', by simp [h3]⟩
    · intro c hcm hs d hdm
      rcases hS.closed c hcm hs d hdm with h3 | ⟨l', h3⟩
      · exact .inl h3
      · exact .inr ⟨l', by simp [h3]⟩
    · intro hfine
      have h3 := h2 hfine
      have hcalls : ∀ d, callsOf s' d = callsOf s d + if d = .new v then 1 else 0 := fun d => calls_hand s i (.new v) d .whole
      refine ⟨?_, ?_, ?_, ?_, ?_, ?_⟩
      · intro t' j' e hte
        by_cases ht : t' = .new v
        · subst ht
          rw [hmnew] at hte
          right
          rw [Multiset.mem_add, Multiset.mem_coe, mem_scatter]
          exact .inl ⟨j', e, hte, by rw [zero_add]⟩
        · rw [hmold t' ht] at hte
          rcases h3.pend t' j' e hte with ⟨d, h4⟩ | h4
          · exact .inl ⟨d, hkeep _ _ _ h4⟩
          · rw [Multiset.mem_cons] at h4
            rcases h4 with h4 | h4
            · cases h4
              exact .inl ⟨_, by rw [hget, if_pos ⟨rfl, rfl⟩]⟩
            · exact .inr (by simp [h4])
      · intro m hm hl
        rw [hcalls, if_neg (by simp), hmold _ (by simp), hits_add, hits_scatter]
        rcases h3.leaf m hm hl with h4 | ⟨h4, h5, h6⟩
        · exact .inl h4
        · rw [hits_fresh] at h6
          refine .inr ⟨h4, h5, ?_⟩
          rw [← h6]
          show callsOf s (.old m) + 0 + (0 + hits bag m) + unsent x s m = _
          omega
      · intro m hm
        rw [hcalls, if_neg (by simp)]; exact h3.code m hm
      · intro i' w hw
        rw [hcalls]
        rcases (hin i' w).1 hw with h4 | ⟨rfl, rfl⟩
        · rw [if_neg (by rintro heq; cases heq; exact hnot i' h4)]; exact h3.callNew i' w h4
        · rw [if_pos rfl, h3.callNo _ hnot]
      · intro w hw
        rw [hcalls, if_neg (by rintro heq; cases heq; exact hw i ((hin i v).2 (.inr ⟨rfl, rfl⟩)))]
        exact h3.callNo w fun i' h4 => hw i' ((hin i' w).2 (.inl h4))
      · intro m hm
        rw [hcalls, if_neg (by simp)]; exact h3.callOld m hm

omit [DecidableEq N] [DecidableEq V] in
theorem limit_crowded {ns : Fin n → List V} (hb : b.Sane) (hx : Sorted b g hn x) {v : V} {l : L} {t : Nd N V} {j : Nat}
    (h : Sound b g x hn ns s bag) (hmade : (s.made t)[j]? = some (l, v)) (hf : ∀ e ∈ s.tab (spot b hn v), b.vEq v (vertex g e.node) = false)
    (he : s.err (spot b hn v) = 0) (hl : b.limit n ≠ 0) (hc : ¬ s.count (spot b hn v) < b.limit n) : Crowded b g n (b.limit n) := by
  obtain ⟨hnov, hnot, happ⟩ := novel_of_find hb hx h hf
  obtain ⟨-, u, hu1, -, hu3⟩ := due_edge hb h hmade
  obtain ⟨-, -, h3⟩ := h.count hl (spot b hn v)
  have h3 := h3 he
  refine ⟨(spot b hn v).val, v :: ns (spot b hn v), by simp; omega, List.pairwise_cons.2 ⟨happ, h.apart _⟩, ?_⟩
  intro w hw
  rw [List.mem_cons] at hw
  rcases hw with rfl | hw
  · exact ⟨hnov, rfl, u, l, hu1, hu3⟩
  · obtain ⟨h4, h5, h6, h7⟩ := h.novel _ w hw
    refine ⟨h4, by rw [← h7]; rfl, ?_⟩
    cases h5 with
    | leaf hm hl =>
      have := h4 _ hm
      rw [hb.v.refl] at this
      exact absurd this (by decide)
    | novel h8 h9 h10 h11 => exact ⟨_, _, h8, h10⟩

/-- A packet for a vertex that was passed to `cru_connect`. -/
theorem inv_fresh (hb : b.Sane) (hsub : b.sub = false) (hw : g.WF) (hd : Distinct b g) (hx : Sorted b g hn x) {v : V} {l : L} {t : Nd N V} {j : Nat}
    (h : Inv b g x hn s (.fresh v l t j ::ₘ bag)) (hi : s.started (spot b hn v) = true) :
    Inv b g x hn (admit b g (spot b hn v) s v l t j).1 ((admit b g (spot b hn v) s v l t j).2 + bag) := by
  obtain ⟨ns, h1, h2⟩ := h
  have hS := sound_skip h1 hi
  unfold admit
  by_cases hstop : s.err (spot b hn v) ≠ 0 ∨ s.stop (spot b hn v) = true
  · rw [if_pos hstop, Multiset.coe_nil, zero_add]
    exact inv_discard hS _
  · rw [if_neg hstop]
    push Not at hstop
    split
    · rename_i k hk
      rw [List.findIdx?_eq_some_iff_getElem] at hk
      obtain ⟨hlt, hmat, -⟩ := hk
      rw [List.getElem?_eq_getElem hlt]
      dsimp only
      unfold reachExtant
      dsimp only
      rw [if_pos (.inl hsub), Multiset.coe_nil, zero_add]
      exact inv_link hb hd h1 h2 hi (entry_has hS hx (List.getElem_mem hlt)) ((matching_iff hb _ _).1 hmat)
    · rename_i hk
      rw [List.findIdx?_eq_none_iff] at hk
      have hf : ∀ e ∈ s.tab (spot b hn v), b.vEq v (vertex g e.node) = false := by
        intro e he
        rw [Bool.eq_false_iff]
        intro h3
        have := hk e he
        rw [(matching_iff hb _ _).2 h3] at this
        exact absurd this (by decide)
      dsimp only
      split_ifs with hlim hc
      · exact inv_new hb hsub hw hd hx h1 h2 hi hf hstop.1 s.count (fun h => absurd hlim h)
      · exact inv_new hb hsub hw hd hx h1 h2 hi hf hstop.1 _ (fun _ => ⟨hc, rfl⟩)
      · rw [Multiset.coe_nil, zero_add]
        have hC := limit_crowded hb hx hS (h1.fresh v l t j (by simp)) hf hstop.1 hlim hc
        have h3 := sound_fail (e := intOvf) hS (spot b hn v) (by decide) (.inr ⟨rfl, hlim, hC⟩) s.calls
          (Function.update s.count (spot b hn v) (s.count (spot b hn v) + 1)) (by
            intro j'
            by_cases hj : j' = spot b hn v
            · subst hj; simp
            · rw [Function.update_of_ne hj]; exact ⟨le_rfl, fun _ => rfl⟩)
        have h4 : Sound b g x hn ns (raise { s with count := Function.update s.count (spot b hn v) (s.count (spot b hn v) + 1) } (spot b hn v) intOvf) bag := by
          refine h3.alike ⟨rfl, rfl, rfl, rfl, rfl, rfl, ?_, rfl⟩ hS.halt
          show Function.update s.err _ (if s.err _ = 0 then _ else s.err _) = _
          rw [if_pos hstop.1]
        exact inv_discard (h4.alike (.poll _ _) (halt_poll h4.halt _)) _

theorem begin_err (s : Job n N V L) (i : Fin n) : (begin x s i).1.err = s.err := by unfold begin; split_ifs <;> rfl

theorem handle_undeferred (a : Addr N V) (i : Fin n) (p : Pkt N V L) : (handle b g a x i s p).2.2 = false := rfl

theorem produced_eq (a : Addr N V) (s : Job n N V L) (p : Pkt N V L) :
    Bag.produced (task b g a x hn) s p = ((handle b g a x (lane hn (hashOf b g p)) s p).2.1 : Multiset (Pkt N V L)) := by
  show ((handle b g a x (lane hn (hashOf b g p)) s p).2.1 : Multiset (Pkt N V L)) + (if false = true then {p} else 0) = _
  simp

theorem inv_handle (hb : b.Sane) (hsub : b.sub = false) (hw : g.WF) (hd : Distinct b g) (hx : Sorted b g hn x) (a : Addr N V) {p : Pkt N V L}
    (h : Inv b g x hn s (p ::ₘ bag)) : Inv b g x hn (handle b g a x (lane hn (hashOf b g p)) s p).1
      ((handle b g a x (lane hn (hashOf b g p)) s p).2.1 + bag) := by
  unfold handle
  dsimp only
  obtain ⟨h1, h2⟩ := inv_begin hx hw (inv_poll h (lane hn (hashOf b g p))) (lane hn (hashOf b g p))
  set y := begin x (poll s (lane hn (hashOf b g p))) (lane hn (hashOf b g p)) with hy
  have hshift : ∀ q : Multiset (Pkt N V L), (y.2 : Multiset (Pkt N V L)) + (p ::ₘ q) = p ::ₘ (y.2 + q) := fun q => by rw [Multiset.add_cons]
  rw [hshift] at h1
  rcases p with ⟨m, l⟩ | ⟨v, l, t, j⟩
  · have := inv_known hb hsub hx a h1 h2
    dsimp only
    rw [← Multiset.coe_add, add_comm (y.2 : Multiset (Pkt N V L)), add_assoc]
    exact this
  · have := inv_fresh hb hsub hw hd hx h1 h2
    dsimp only
    rw [← Multiset.coe_add, add_comm (y.2 : Multiset (Pkt N V L)), add_assoc]
    exact this

theorem inv_reach (hb : b.Sane) (hsub : b.sub = false) (hw : g.WF) (hd : Distinct b g) (hx : Sorted b g hn x) (a : Addr N V)
    {y : Job n N V L × Multiset (Pkt N V L)} (h : Bag.Reach (task b g a x hn) (.known g.base none) (start x) y) : Inv b g x hn y.1 y.2 := by
  induction h with
  | init =>
    refine ⟨fun _ => [], ⟨fun i => by simp [start], fun i => by simp [start], fun _ _ => rfl, ?_, fun _ => .nil, ?_, fun _ _ => rfl, fun _ => .inl rfl, ?_,
      ?_, ?_, ?_, ?_, ?_, ?_, ?_, ?_⟩, fun _ => ⟨?_, ?_, ?_, ?_, fun _ _ => ?_, fun _ _ => ?_⟩⟩
    · intro i v hv; simp at hv
    · intro i v hv; simp at hv
    · intro t j u h; simp [start] at h
    · intro m l h
      rw [Multiset.mem_singleton] at h
      cases h; exact base_mem hw
    · intro v l t j h
      rw [Multiset.mem_singleton] at h
      cases h
    · intro i v hv; simp at hv
    · intro i h; simp [start] at h
    · intro _ i; simp [start]
    · intro i h; simp [start] at h
    · exact .inr ⟨none, by simp⟩
    · intro m _ h; simp [start] at h
    · intro t j e h; simp [start] at h
    · intro m hm hl
      have h0 : callsOf (start x : Job n N V L) (.old m) = 0 := by unfold callsOf start; simp
      refine .inr ⟨rfl, .inr h0, ?_⟩
      rw [h0, ← Multiset.cons_zero, hits_known]
      unfold total unsent
      have : hits (0 : Multiset (Pkt N V L)) m = 0 := by unfold hits; simp
      rw [this]
      simp [start]
      omega
    · intro m hm h
      exact absurd (by unfold callsOf start; simp) h
    · intro i v hv; simp at hv
    · unfold callsOf start; simp
    · unfold callsOf start; simp
  | step hr hs ih =>
    cases hs with
    | handle s p rest =>
      rw [produced_eq]
      exact inv_handle hb hsub hw hd hx a ih
    | env e s m =>
      obtain ⟨ns, h1, h2⟩ := ih
      exact ⟨ns, h1.alike ⟨rfl, rfl, rfl, rfl, rfl, rfl, rfl, rfl⟩ (fun _ _ => by show (1 : Nat) ≠ 0; decide),
        fun hf => absurd hf.1 (by show (1 : Nat) ≠ 0; decide)⟩

end Cru.Spread
