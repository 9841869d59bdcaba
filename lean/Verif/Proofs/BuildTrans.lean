import Verif.Model.Build

namespace Cru.Build

open Cru.Net

variable {n : Nat} {V L : Type}

/-- The possible effects of handling a packet, one constructor per branch. -/
inductive Trans (b : Builder V L) (i : Fin n) (g : Job n V L) (p : Packet n V L) :
    Job n V L → List (Packet n V L) → Prop
  | drop (s c e k)
      (he : (e = g.err ∧ (g.err i ≠ 0 ∨ g.stop i = true ∨ g.killed ≠ 0)) ∨
        (e = Function.update g.err i intOvf ∧ g.err i = 0 ∧ g.stop i = false ∧ find b (g.nodes i) p.payload = none ∧
          b.limit n ≠ 0 ∧ b.limit n ≤ g.count i))
      (hc : c = g.count ∨ e i ≠ 0)
      (hcm : ∀ j, j ≠ i → c j = g.count j)
      (hk : (k = g.killed ∧ (g.stop i = true ∨ g.killed ≠ 0)) ∨ (k = 2 ∧ e i ≠ 0)) :
      Trans b i g p { g with sample := s, count := c, err := e, killed := k,
                             stop := Function.update g.stop i true, vFree := p.payload ::ₘ g.vFree } []
  | orphan (s k) (he : g.err i = 0) (hs : g.stop i = false) (hf : find b (g.nodes i) p.payload = some k)
      (hc : p.carrier = none) :
      Trans b i g p { g with sample := s, err := Function.update g.err i (ier 577) } []
  | link (s k nd c) (he : g.err i = 0) (hs : g.stop i = false) (hf : find b (g.nodes i) p.payload = some k)
      (hk : (g.nodes i)[k]? = some nd) (hc : p.carrier = some c) (hseen : nd.seen.any (b.incEq p.inc) = true) :
      Trans b i g p { g with sample := s, vFree := p.payload ::ₘ g.vFree,
                             link := Function.update g.link c (some (i, k)) } []
  | moreErr (s k nd c) (he : g.err i = 0) (hs : g.stop i = false) (hf : find b (g.nodes i) p.payload = some k)
      (hk : (g.nodes i)[k]? = some nd) (hc : p.carrier = some c) (hseen : nd.seen.any (b.incEq p.inc) = false)
      (hx : (b.connect p.inc nd.vertex).1 ≠ 0) :
      Trans b i g p { g with
        sample := s, link := Function.update g.link c (some (i, k)),
        calls := Function.update g.calls i (g.calls i ++ [(p.inc, nd.vertex)]),
        err := Function.update g.err i (b.connect p.inc nd.vertex).1,
        nodes := Function.update g.nodes i ((g.nodes i).set k { nd with seen := nd.seen ++ [p.inc] }),
        vNew := g.vNew + ((b.connect p.inc nd.vertex).2.map Prod.snd : List V),
        lNew := g.lNew + ((b.connect p.inc nd.vertex).2.map Prod.fst : List L),
        vFree := p.payload ::ₘ g.vFree + ((b.connect p.inc nd.vertex).2.map Prod.snd : List V),
        lFree := g.lFree + ((b.connect p.inc nd.vertex).2.map Prod.fst : List L) } []
  | moreOk (s k nd c) (he : g.err i = 0) (hs : g.stop i = false) (hf : find b (g.nodes i) p.payload = some k)
      (hk : (g.nodes i)[k]? = some nd) (hc : p.carrier = some c) (hseen : nd.seen.any (b.incEq p.inc) = false)
      (hx : (b.connect p.inc nd.vertex).1 = 0) :
      Trans b i g p { g with
        sample := s, link := Function.update g.link c (some (i, k)),
        calls := Function.update g.calls i (g.calls i ++ [(p.inc, nd.vertex)]),
        nodes := Function.update g.nodes i ((g.nodes i).set k
          { nd with seen := nd.seen ++ [p.inc], edges := nd.edges ++ b.uniq (b.connect p.inc nd.vertex).2 }),
        vNew := g.vNew + ((b.connect p.inc nd.vertex).2.map Prod.snd : List V),
        lNew := g.lNew + ((b.connect p.inc nd.vertex).2.map Prod.fst : List L),
        vFree := p.payload ::ₘ g.vFree + ((b.dropped (b.connect p.inc nd.vertex).2).map Prod.snd : List V),
        lFree := g.lFree + ((b.dropped (b.connect p.inc nd.vertex).2).map Prod.fst : List L) }
        (scatterOut b i k nd.edges.length (b.uniq (b.connect p.inc nd.vertex).2))
  | newErr (s c) (he : g.err i = 0) (hs : g.stop i = false) (hf : find b (g.nodes i) p.payload = none)
      (hl : (b.limit n = 0 ∧ c = g.count) ∨ (g.count i < b.limit n ∧ c = Function.update g.count i (g.count i + 1)))
      (hx : (b.connect p.inc p.payload).1 ≠ 0) :
      Trans b i g p { g with
        sample := s, count := c,
        calls := Function.update g.calls i (g.calls i ++ [(p.inc, p.payload)]),
        err := Function.update g.err i (b.connect p.inc p.payload).1,
        vNew := g.vNew + ((b.connect p.inc p.payload).2.map Prod.snd : List V),
        lNew := g.lNew + ((b.connect p.inc p.payload).2.map Prod.fst : List L),
        vFree := p.payload ::ₘ g.vFree + ((b.connect p.inc p.payload).2.map Prod.snd : List V),
        lFree := g.lFree + ((b.connect p.inc p.payload).2.map Prod.fst : List L) } []
  | newOk (s c) (he : g.err i = 0) (hs : g.stop i = false) (hf : find b (g.nodes i) p.payload = none)
      (hl : (b.limit n = 0 ∧ c = g.count) ∨ (g.count i < b.limit n ∧ c = Function.update g.count i (g.count i + 1)))
      (hx : (b.connect p.inc p.payload).1 = 0) :
      Trans b i g p { g with
        sample := s, count := c,
        link := (match p.carrier with | none => g.link
                                      | some e => Function.update g.link e (some (i, (g.nodes i).length))),
        calls := Function.update g.calls i (g.calls i ++ [(p.inc, p.payload)]),
        nodes := Function.update g.nodes i (g.nodes i ++
          [{ vertex := p.payload, seen := [p.inc], edges := b.uniq (b.connect p.inc p.payload).2 }]),
        vNew := g.vNew + ((b.connect p.inc p.payload).2.map Prod.snd : List V),
        lNew := g.lNew + ((b.connect p.inc p.payload).2.map Prod.fst : List L),
        vFree := g.vFree + ((b.dropped (b.connect p.inc p.payload).2).map Prod.snd : List V),
        lFree := g.lFree + ((b.dropped (b.connect p.inc p.payload).2).map Prod.fst : List L) }
        (scatterOut b i (g.nodes i).length 0 (b.uniq (b.connect p.inc p.payload).2))

theorem poll_quiet (g : Job n V L) (i : Fin n) (h : (poll g i).stop i = false) :
    g.stop i = false ∧ ∃ s, poll g i = { g with sample := s } := by
  unfold poll at h ⊢
  split at h
  · rename_i h'; rw [h'] at h; cases h
  · rename_i h'
    have h' : g.stop i = false := by simpa using h'
    refine ⟨h', Function.update g.sample i (g.sample i + 1), ?_⟩
    rw [if_neg (by simp [h'])]
    simp only [Function.update_self] at h
    rw [h, ← h', Function.update_eq_self]

theorem poll_stop (g : Job n V L) (i : Fin n) (h : (poll g i).stop i = true) :
    (g.stop i = true ∨ g.killed ≠ 0) ∧ ∃ s, poll g i = { g with sample := s, stop := Function.update g.stop i true } := by
  unfold poll at h ⊢
  split at h
  · rename_i h'
    refine ⟨.inl h', g.sample, ?_⟩
    rw [if_pos h']
    rw [← h', Function.update_eq_self]
  · rename_i h'
    rw [if_neg h']
    simp only [Function.update_self, Bool.and_eq_true] at h
    refine ⟨.inr (by simpa using h.2), Function.update g.sample i (g.sample i + 1), ?_⟩
    simp [h]

theorem discard_poll (g : Job n V L) (i : Fin n) (p : Packet n V L) : ∃ s k,
    discard (poll g i) i p = { g with sample := s, killed := k, stop := Function.update g.stop i true,
                                      vFree := p.payload ::ₘ g.vFree } ∧
    ((k = g.killed ∧ (g.stop i = true ∨ g.killed ≠ 0)) ∨ (k = 2 ∧ (poll g i).stop i = false)) := by
  cases h : (poll g i).stop i with
  | false =>
    obtain ⟨h1, s, h2⟩ := poll_quiet g i h
    refine ⟨s, 2, ?_, .inr ⟨rfl, rfl⟩⟩
    rw [h2]
    simp [discard, h1]
  | true =>
    obtain ⟨h1, s, h2⟩ := poll_stop g i h
    refine ⟨s, g.killed, ?_, .inl ⟨rfl, h1⟩⟩
    rw [h2]
    simp [discard]

theorem handle_noDefer (b : Builder V L) (i : Fin n) (g : Job n V L) (p : Packet n V L) :
    (handle b i g p).2.2 = false := by
  simp only [handle, reachExtant, reachNew]
  split
  · rfl
  · split
    · split
      · split
        · rfl
        · split
          · rfl
          · split <;> rfl
      · rfl
    · split
      · split <;> rfl
      · split
        · split <;> rfl
        · rfl

theorem setLink_eq (g : Job n V L) (c : Option (EdgeId n)) (t : NodeId n) :
    setLink g c t = { g with link := match c with
      | none => g.link
      | some e => Function.update g.link e (some t) } := by
  cases c <;> rfl

theorem handle_trans (b : Builder V L) (i : Fin n) (g : Job n V L) (p : Packet n V L) :
    Trans b i g p (handle b i g p).1 (handle b i g p).2.1 := by
  cases hs : (poll g i).stop i with
  | true =>
    obtain ⟨h1, s, h2⟩ := poll_stop g i hs
    have e1 : handle b i g p = (discard (poll g i) i p, [], false) := by
      simp [handle, hs]
    rw [e1]
    obtain ⟨s, k, h3, h4⟩ := discard_poll g i p
    rw [h3]
    refine Trans.drop s g.count g.err k (.inl ⟨rfl, ?_⟩) (.inl rfl) (fun _ _ => rfl) ?_
    · rcases h1 with h | h
      · exact .inr (.inl h)
      · exact .inr (.inr h)
    · rcases h4 with h | h
      · exact .inl h
      · rw [hs] at h; cases h.2
  | false =>
    obtain ⟨h1, s, h2⟩ := poll_quiet g i hs
    by_cases he : g.err i = 0
    · have e0 : ¬ ((poll g i).err i ≠ 0 ∨ (poll g i).stop i = true) := by
        rw [h2]; simp [he, h1]
      have en : (poll g i).nodes = g.nodes := by rw [h2]
      cases hf : find b (g.nodes i) p.payload with
      | some k =>
        have hk : ∃ nd, (g.nodes i)[k]? = some nd := by
          unfold find at hf
          have := List.findIdx?_eq_some_iff_findIdx_eq.1 hf
          exact ⟨_, List.getElem?_eq_getElem this.1⟩
        obtain ⟨nd, hk⟩ := hk
        have e1 : handle b i g p = reachExtant b i (poll g i) p k nd := by
          simp only [handle, e0, if_false, en, hf, hk]
        rw [e1]
        cases hc : p.carrier with
        | none =>
          simp only [reachExtant, hc]
          rw [h2]
          simp only [raise, he, if_true]
          exact Trans.orphan s k he h1 hf hc
        | some c =>
          by_cases hseen : nd.seen.any (b.incEq p.inc) = true
          · simp only [reachExtant, hc, hseen, if_true]
            rw [h2]
            exact Trans.link s k nd c he h1 hf hk hc hseen
          · simp only [reachExtant, hc, hseen]
            have hseen' : nd.seen.any (b.incEq p.inc) = false := by simpa using hseen
            by_cases hx : (b.connect p.inc nd.vertex).1 = 0
            · simp only [hx, ne_eq, not_true_eq_false, if_false, Bool.false_eq_true]
              rw [h2]
              simp only [setLink, hand, freeEdges]
              exact Trans.moreOk s k nd c he h1 hf hk hc hseen' hx
            · simp only [hx, ne_eq, not_false_eq_true, if_true, Bool.false_eq_true, if_false]
              rw [h2]
              simp only [setLink, hand, freeEdges, raise, he, if_true]
              exact Trans.moreErr s k nd c he h1 hf hk hc hseen' hx
      | none =>
        have new : ∀ c, ((b.limit n = 0 ∧ c = g.count) ∨
            (g.count i < b.limit n ∧ c = Function.update g.count i (g.count i + 1))) →
            Trans b i g p (reachNew b i { g with sample := s, count := c } p).1
              (reachNew b i { g with sample := s, count := c } p).2.1 := by
          intro c hl
          by_cases hx : (b.connect p.inc p.payload).1 = 0
          · simp only [reachNew, hx, ne_eq, not_true_eq_false, if_false, setLink_eq]
            exact Trans.newOk s c he h1 hf hl hx
          · simp only [reachNew, hx, ne_eq, not_false_eq_true, if_true, hand, freeEdges, raise, he]
            exact Trans.newErr s c he h1 hf hl hx
        by_cases hl : b.limit n = 0
        · have e1 : handle b i g p = reachNew b i { g with sample := s, count := g.count } p := by
            simp only [handle, e0, if_false, en, hf, hl, if_true]
            rw [h2]
          rw [e1]
          exact new _ (.inl ⟨hl, rfl⟩)
        · by_cases hc : g.count i < b.limit n
          · have e1 : handle b i g p =
                reachNew b i { g with sample := s, count := Function.update g.count i (g.count i + 1) } p := by
              simp only [handle, e0, if_false, en, hf, hl]
              rw [h2]
              simp only [hc, if_true]
            rw [e1]
            exact new _ (.inr ⟨hc, rfl⟩)
          · have e1 : handle b i g p = (discard (poll (raise { g with
                sample := s, count := Function.update g.count i (g.count i + 1) } i intOvf) i) i p, [], false) := by
              simp only [handle, e0, if_false, en, hf, hl]
              rw [h2]
              simp only [hc, if_false]
            rw [e1]
            obtain ⟨s', k, h3, h4⟩ := discard_poll (raise { g with
                sample := s, count := Function.update g.count i (g.count i + 1) } i intOvf) i p
            simp only []
            rw [h3]
            simp only [raise, he, if_true]
            refine Trans.drop s' _ _ k (.inr ⟨rfl, he, h1, hf, hl, by omega⟩) (.inr ?_) ?_ ?_
            · simp [intOvf]
            · intro j hj
              simp [Function.update_of_ne hj]
            · rcases h4 with ⟨h, h'⟩ | ⟨h, _⟩
              · exact .inl ⟨h, h'⟩
              · exact .inr ⟨h, by simp [intOvf]⟩
    · have e1 : handle b i g p = (discard (poll g i) i p, [], false) := by
        have : (poll g i).err i ≠ 0 := by rw [h2]; exact he
        simp [handle, this]
      rw [e1]
      obtain ⟨s, k, h3, h4⟩ := discard_poll g i p
      rw [h3]
      refine Trans.drop s g.count g.err k (.inl ⟨rfl, .inl he⟩) (.inl rfl) (fun _ _ => rfl) ?_
      rcases h4 with h | h
      · exact .inl h
      · exact .inr ⟨h.1, he⟩

end Cru.Build
