import Verif.Spec.Spawn
import Verif.Proofs.Rover
import Verif.Proofs.Trav
import Verif.Proofs.Quiet

/-! # Making a new graph: lemmas -/

namespace Cru.Spawn

open Net

variable {n : Nat} {K W M : Type} [DecidableEq K]

variable {mk : Maker K W M} {limit : Nat} {hash : K → Nat} {hn : 0 < n}

/-- What a worker does with a packet. -/
theorem handle_cases (i : Fin n) (s : Work n K W M) (p : Pkt n K) : ∃ sample stop,
    (∀ j, j ≠ i → stop j = s.stop j) ∧ (stop i = false → s.stop i = false) ∧ (stop i = true → s.stop i = true ∨ s.killed ≠ 0) ∧
    (((s.err i ≠ 0 ∨ stop i = true) ∧ handle mk limit i s p = ({ s with sample := sample, stop := stop }, [], false)) ∨
    (s.err i = 0 ∧ stop i = false ∧ ∃ t, (p.key, t) ∈ s.seen i ∧ handle mk limit i s p =
      ({ s with sample := sample, stop := stop, mem := patch s.mem p.carrier t }, [], false)) ∨
    (s.err i = 0 ∧ stop i = false ∧ p.key ∉ (s.seen i).map (·.1) ∧ limit ≠ 0 ∧ limit ≤ (s.seen i).length ∧ handle mk limit i s p =
      ({ s with sample := sample, stop := stop, err := Function.update s.err i Build.intOvf }, [], false)) ∨
    (s.err i = 0 ∧ stop i = false ∧ p.key ∉ (s.seen i).map (·.1) ∧ (limit ≠ 0 → (s.seen i).length < limit) ∧ handle mk limit i s p =
      ({ s with sample := sample, stop := stop
                seen := Function.update s.seen i (s.seen i ++ [(p.key, (i, (s.mem.nodes i).length))])
                mem := patch (enqueue s.mem i (mk.vertex p.key, (mk.edges p.key).map (·.1))) p.carrier (i, (s.mem.nodes i).length) },
        scatter (i, (s.mem.nodes i).length) (mk.edges p.key), false))) := by
  obtain ⟨sample, stop, e, h1, h2, h3⟩ := Trav.poll_eq s i
  refine ⟨sample, stop, h1, h2, h3, ?_⟩
  simp only [handle, e]
  by_cases c : s.err i ≠ 0 ∨ stop i = true
  · exact .inl ⟨c, by rw [if_pos c]⟩
  · right
    have c' : s.err i = 0 ∧ stop i = false := by simpa using c
    rw [if_neg c]
    rcases hf : (s.seen i).find? (fun e => decide (e.1 = p.key)) with _ | d
    · right
      have hk : p.key ∉ (s.seen i).map (·.1) := by
        rw [List.find?_eq_none] at hf
        intro hm
        obtain ⟨d, hd, hdk⟩ := List.mem_map.1 hm
        exact hf d hd (by simpa using hdk)
      by_cases hl : limit ≠ 0 ∧ limit ≤ (s.seen i).length
      · exact .inl ⟨c'.1, c'.2, hk, hl.1, hl.2, by simp only [hf, if_pos hl]⟩
      · refine .inr ⟨c'.1, c'.2, hk, fun h0 => ?_, by simp only [hf, if_neg hl]⟩
        by_contra hc
        exact hl ⟨h0, by omega⟩
    · left
      have hm := List.mem_of_find?_eq_some hf
      have hk := List.find?_some hf
      simp only [decide_eq_true_eq] at hk
      exact ⟨c'.1, c'.2, d.2, by rw [← hk]; exact hm, by simp only [hf]⟩

omit [DecidableEq K] in
theorem scatter_keys (a : Id n) (es : List (M × K)) : (scatter a es).filterMap (fun p => some p.key) = es.map (·.2) := by
  have : (scatter a es).filterMap (fun p => some p.key) = (es.zipIdx.map Prod.fst).map (·.2) := by
    rw [List.filterMap_eq_map', scatter, List.map_map, List.map_map]; rfl
  rw [this, List.zipIdx_map_fst]

/-- The task traverses the keys. -/
def rover (mk : Maker K W M) (limit : Nat) (hash : K → Nat) (hn : 0 < n) :
    Rover (task mk limit hash hn) (fun k => (mk.edges k).map (·.2)) where
  I _ := True
  node p := some p.key
  weight _ := 0
  lane k := Build.lane hn (hash k)
  seen s i := (s.seen i).map (·.1)
  ok s i := s.err i = 0 ∧ s.stop i = false
  dest p m h := by cases h; rfl
  inv _ _ _ := trivial
  others s p j hj := by
    change ((handle mk limit (Build.lane hn (hash p.key)) s p).1.seen j).map _ = _ ∧ _
    have hj' : j ≠ Build.lane hn (hash p.key) := hj
    change _ ∧ ((handle mk limit (Build.lane hn (hash p.key)) s p).1.err j = 0 ∧ (handle mk limit (Build.lane hn (hash p.key)) s p).1.stop j = false → _)
    obtain ⟨sample, stop, h1, -, -, h⟩ := handle_cases (mk := mk) (limit := limit) (Build.lane hn (hash p.key)) s p
    rcases h with ⟨-, e⟩ | ⟨-, -, t, -, e⟩ | ⟨-, -, -, -, -, e⟩ | ⟨-, -, -, -, e⟩ <;> rw [e] <;>
      simp only [Function.update_of_ne hj', h1 j hj', true_and] <;> exact id
  undeferred s p := by
    change (handle mk limit (Build.lane hn (hash p.key)) s p).2.2 = false
    obtain ⟨sample, stop, -, -, -, h⟩ := handle_cases (mk := mk) (limit := limit) (Build.lane hn (hash p.key)) s p
    rcases h with ⟨-, e⟩ | ⟨-, -, t, -, e⟩ | ⟨-, -, -, -, -, e⟩ | ⟨-, -, -, -, e⟩ <;> rw [e]
  mail s p h := by cases h
  step s p m _ h := by
    cases h
    change (((handle mk limit (Build.lane hn (hash p.key)) s p).1.seen (Build.lane hn (hash p.key))).map _ = _ ∧
      (handle mk limit (Build.lane hn (hash p.key)) s p).2.1.filterMap _ = _ ∧
      ((handle mk limit (Build.lane hn (hash p.key)) s p).1.err _ = 0 ∧ (handle mk limit (Build.lane hn (hash p.key)) s p).1.stop _ = false → _)) ∨
      (_ ∧ ((handle mk limit (Build.lane hn (hash p.key)) s p).1.seen (Build.lane hn (hash p.key))).map _ = _ ∧
      (∀ q ∈ (handle mk limit (Build.lane hn (hash p.key)) s p).2.1.filterMap _, _) ∧
      ((handle mk limit (Build.lane hn (hash p.key)) s p).1.err _ = 0 ∧ (handle mk limit (Build.lane hn (hash p.key)) s p).1.stop _ = false →
        _ ∧ ∀ q ∈ _, q ∈ (handle mk limit (Build.lane hn (hash p.key)) s p).2.1.filterMap _))
    obtain ⟨sample, stop, -, h2, -, h⟩ := handle_cases (mk := mk) (limit := limit) (Build.lane hn (hash p.key)) s p
    rcases h with ⟨c, e⟩ | ⟨-, -, t, ht, e⟩ | ⟨-, -, -, -, -, e⟩ | ⟨-, -, hk, -, e⟩ <;> rw [e]
    · refine .inl ⟨rfl, rfl, fun h => ?_⟩
      rcases c with c | c
      · exact absurd h.1 c
      · exact absurd (c.symm.trans h.2) (by decide)
    · exact .inl ⟨rfl, rfl, fun h => ⟨⟨h.1, h2 h.2⟩, List.mem_map.2 ⟨_, ht, rfl⟩⟩⟩
    · refine .inl ⟨rfl, rfl, fun h => ?_⟩
      have h1 : Function.update s.err (Build.lane hn (hash p.key)) Build.intOvf (Build.lane hn (hash p.key)) = 0 := h.1
      simp [Build.intOvf] at h1
    · refine .inr ⟨hk, by simp; rfl, fun q hq => ?_, fun h => ⟨⟨h.1, h2 h.2⟩, fun q hq => ?_⟩⟩
      · rw [scatter_keys] at hq; exact hq
      · rw [scatter_keys]; exact hq
  env e s := ⟨rfl, id, fun i h => h⟩

/-- What's true of the new nodes and the packets at any time. -/
structure Inv (mk : Maker K W M) (limit : Nat) (lane : K → Fin n) (k₀ : K) (s : Work n K W M) (bag : Multiset (Pkt n K)) : Prop where
  ids : ∀ i, (s.seen i).map (·.2) = (List.range (s.seen i).length).map fun k => (i, k)
  nodes : ∀ i, s.mem.nodes i = (s.seen i).map fun e => (mk.vertex e.1, (mk.edges e.1).map (·.1))
  link : ∀ a q t, s.mem.link a q = some t → ∃ k e, (k, a) ∈ s.seen a.1 ∧ (mk.edges k)[q]? = some e ∧ (e.2, t) ∈ s.seen t.1
  carrier : ∀ p ∈ bag, ∀ a q, p.carrier = some (a, q) → ∃ k e, (k, a) ∈ s.seen a.1 ∧ (mk.edges k)[q]? = some e ∧ e.2 = p.key
  linked : (∀ i, s.err i = 0 ∧ s.stop i = false) → ∀ k a, (k, a) ∈ s.seen a.1 → ∀ q e, (mk.edges k)[q]? = some e →
    s.mem.link a q ≠ none ∨ ∃ p ∈ bag, p.carrier = some (a, q)
  first : (∀ i, s.err i = 0 ∧ s.stop i = false) → (bag = {⟨k₀, none⟩} ∧ ∀ i, s.seen i = []) ∨ ∃ a, (s.seen (lane k₀))[0]? = some (k₀, a)
  bound : limit ≠ 0 → ∀ i, (s.seen i).length ≤ limit
  over : ∀ i, s.err i ≠ 0 → s.err i = Build.intOvf ∧ limit ≠ 0 ∧ limit ≤ (s.seen i).length ∧ ∃ k, k ∉ (s.seen i).map (·.1) ∧ lane k = i ∧
    Reaches (fun k => (mk.edges k).map (·.2)) k₀ k
  stop : s.killed = 0 → ∀ i, s.stop i = false

omit [DecidableEq K] in
theorem id_lane {s : Work n K W M} (h : ∀ i, (s.seen i).map (·.2) = (List.range (s.seen i).length).map fun k => (i, k)) {i : Fin n} {k : K} {a : Id n}
    (hm : (k, a) ∈ s.seen i) : a.1 = i := by
  have : a ∈ (s.seen i).map (·.2) := List.mem_map.2 ⟨_, hm, rfl⟩
  rw [h i] at this
  obtain ⟨j, -, e⟩ := List.mem_map.1 this
  rw [← e]

omit [DecidableEq K] in
/-- A node is made from one key. -/
theorem id_key {s : Work n K W M} (h : ∀ i, (s.seen i).map (·.2) = (List.range (s.seen i).length).map fun k => (i, k)) {i : Fin n} {k k' : K} {a : Id n}
    (hm : (k, a) ∈ s.seen i) (hm' : (k', a) ∈ s.seen i) : k = k' := by
  have hd : ((s.seen i).map (·.2)).Nodup := by
    rw [h i]
    exact List.Nodup.map (fun x y e => by simpa using e) List.nodup_range
  have := List.inj_on_of_nodup_map hd hm hm' rfl
  exact congrArg Prod.fst this

omit [DecidableEq K] in
theorem patch_nodes (h : Heap n W M) (c : Option (Id n × Nat)) (t : Id n) : (patch h c t).nodes = h.nodes := by
  rcases c with _ | ⟨a, q⟩ <;> rfl

omit [DecidableEq K] in
theorem patch_link (h : Heap n W M) (c : Option (Id n × Nat)) (t : Id n) (a : Id n) (q : Nat) :
    (patch h c t).link a q = if c = some (a, q) then some t else h.link a q := by
  rcases c with _ | ⟨b, r⟩
  · simp [patch]
  · simp only [patch, Option.some.injEq, Prod.mk.injEq]
    by_cases hb : b = a
    · subst hb
      by_cases hr : r = q
      · subst hr; simp
      · simp [hr, Function.update_of_ne (Ne.symm hr)]
    · simp [hb, Function.update_of_ne (Ne.symm hb)]

omit [DecidableEq K] in
theorem mem_scatter {a : Id n} {es : List (M × K)} {p : Pkt n K} :
    p ∈ scatter a es ↔ ∃ q e, es[q]? = some e ∧ p = ⟨e.2, some (a, q)⟩ := by
  simp only [scatter, List.mem_map, Prod.exists, List.mem_zipIdx_iff_getElem?]
  constructor
  · rintro ⟨x, y, q, h, rfl⟩; exact ⟨_, _, _, h, rfl⟩
  · rintro ⟨q, x, y, h, rfl⟩; exact ⟨_, _, _, h, rfl⟩

theorem inv_reach {k₀ : K} : ∀ x, Bag.Reach (task mk limit hash hn) ⟨k₀, none⟩ start x →
    Inv mk limit (fun k => Build.lane hn (hash k)) k₀ x.1 x.2 := by
  intro x hx
  induction hx with
  | init =>
    refine ⟨fun i => rfl, fun i => rfl, ?_, ?_, ?_, ?_, ?_, ?_, ?_⟩
    · intro a q t h; cases h
    · intro p hp a q h
      rw [Multiset.mem_singleton.1 hp] at h; cases h
    · intro _ k a h; cases h
    · intro _; exact .inl ⟨rfl, fun i => rfl⟩
    · intro _ i; exact Nat.zero_le _
    · intro i h; exact absurd rfl h
    · intro _ i; rfl
  | step hr hs ih =>
    cases hs with
    | env e s bag =>
      exact ⟨ih.ids, ih.nodes, ih.link, ih.carrier, ih.linked, ih.first, ih.bound, ih.over, fun h => by cases h⟩
    | handle s p rest =>
      have hreach : Reaches (fun k => (mk.edges k).map (·.2)) k₀ p.key :=
        (Rover.inv_reach (W := rover mk limit hash hn) (a := k₀) (fun i => rfl) trivial rfl _ hr).flight p (Multiset.mem_cons_self _ _) p.key rfl
      have hprod : Bag.produced (task mk limit hash hn) s p = ((handle mk limit (Build.lane hn (hash p.key)) s p).2.1 : Multiset (Pkt n K)) := by
        have := (rover mk limit hash hn).undeferred s p
        simp [Bag.produced, this]; rfl
      rw [hprod]
      change Inv mk limit _ k₀ (handle mk limit (Build.lane hn (hash p.key)) s p).1 _
      generalize hl : Build.lane hn (hash p.key) = i
      simp only at ih
      obtain ⟨sample, stop, h1, h2, h3, h⟩ := handle_cases (mk := mk) (limit := limit) i s p
      have hstop : s.killed = 0 → ∀ j, stop j = false := by
        intro hk j
        by_cases hj : j = i
        · subst hj
          by_contra hc
          rcases h3 (by simpa using hc) with h4 | h4
          · rw [ih.stop hk] at h4; cases h4
          · exact h4 hk
        · rw [h1 j hj]; exact ih.stop hk j
      have hokOf : (∀ j, s.err j = 0 ∧ stop j = false) → ∀ j, s.err j = 0 ∧ s.stop j = false := by
        intro hok j
        refine ⟨(hok j).1, ?_⟩
        by_cases hj : j = i
        · subst hj; exact h2 (hok j).2
        · rw [← h1 j hj]; exact (hok j).2
      have hcar : ∀ q ∈ rest, ∀ a r, q.carrier = some (a, r) → ∃ k e, (k, a) ∈ s.seen a.1 ∧ (mk.edges k)[r]? = some e ∧ e.2 = q.key :=
        fun q hq => ih.carrier q (Multiset.mem_cons_of_mem hq)
      rcases h with ⟨c, e⟩ | ⟨c1, c2, t, ht, e⟩ | ⟨c1, c2, hk, hl0, hle, e⟩ | ⟨c1, c2, hk, hlt, e⟩ <;> rw [e] <;>
        simp only [Multiset.coe_nil, zero_add]
      · -- dropped
        have hno : ¬ ∀ j, s.err j = 0 ∧ stop j = false := by
          intro hok
          rcases c with c | c
          · exact c (hok i).1
          · exact absurd (c.symm.trans (hok i).2) (by decide)
        exact ⟨ih.ids, ih.nodes, ih.link, hcar, fun hok => absurd hok hno, fun hok => absurd hok hno, ih.bound, ih.over, hstop⟩
      · -- repeated
        have hti := id_lane ih.ids ht
        refine ⟨ih.ids, fun j => by rw [patch_nodes]; exact ih.nodes j, ?_, hcar, ?_, ?_, ih.bound, ih.over, hstop⟩
        · intro a q u hu
          simp only at hu
          rw [patch_link] at hu
          split_ifs at hu with hc
          · cases hu
            obtain ⟨k, d, hk1, hk2, hk3⟩ := ih.carrier p (Multiset.mem_cons_self _ _) a q hc
            exact ⟨k, d, hk1, hk2, by rw [hk3, hti]; exact ht⟩
          · exact ih.link a q u hu
        · intro hok k a hka q d hd
          simp only [patch_link]
          by_cases hc : p.carrier = some (a, q)
          · left; simp [hc]
          · rcases ih.linked (hokOf hok) k a hka q d hd with h4 | ⟨p', hp', h4⟩
            · left; simpa [hc] using h4
            · right
              rcases Multiset.mem_cons.1 hp' with rfl | hp'
              · exact absurd h4 hc
              · exact ⟨p', hp', h4⟩
        · intro hok
          rcases ih.first (hokOf hok) with ⟨-, h4⟩ | h4
          · rw [h4 i] at ht; cases ht
          · exact .inr h4
      · -- overflow
        have hno : ¬ ∀ j, Function.update s.err i Build.intOvf j = 0 ∧ stop j = false := by
          intro hok
          have := (hok i).1
          simp [Build.intOvf] at this
        refine ⟨ih.ids, ih.nodes, ih.link, hcar, fun hok => absurd hok hno, fun hok => absurd hok hno, ih.bound, ?_, hstop⟩
        intro j hj
        by_cases hji : j = i
        · subst hji
          simp only [Function.update_self]
          exact ⟨trivial, hl0, hle, p.key, hk, hl, hreach⟩
        · simp only [Function.update_of_ne hji] at hj ⊢
          exact ih.over j hj
      · -- new
        have hlen : (s.mem.nodes i).length = (s.seen i).length := by rw [ih.nodes i, List.length_map]
        rw [hlen]
        have hmono : ∀ (k : K) (a : Id n) j, (k, a) ∈ s.seen j →
            (k, a) ∈ Function.update s.seen i (s.seen i ++ [(p.key, (i, (s.seen i).length))]) j := by
          intro k a j hka
          by_cases hj : j = i
          · subst hj; rw [Function.update_self]; exact List.mem_append_left _ hka
          · rw [Function.update_of_ne hj]; exact hka
        have hnew : (p.key, (i, (s.seen i).length)) ∈ Function.update s.seen i (s.seen i ++ [(p.key, (i, (s.seen i).length))]) i := by
          rw [Function.update_self]; simp
        have hcase : ∀ (k : K) (a : Id n), (k, a) ∈ Function.update s.seen i (s.seen i ++ [(p.key, (i, (s.seen i).length))]) a.1 →
            (k, a) ∈ s.seen a.1 ∨ k = p.key ∧ a = (i, (s.seen i).length) := by
          intro k a hka
          by_cases hj : a.1 = i
          · rw [hj, Function.update_self] at hka
            rcases List.mem_append.1 hka with hka | hka
            · left; rw [hj]; exact hka
            · right; simpa using hka
          · rw [Function.update_of_ne hj] at hka; exact .inl hka
        have hok' : (∀ j, s.err j = 0 ∧ stop j = false) → ∀ j, s.err j = 0 ∧ s.stop j = false := hokOf
        refine ⟨?_, ?_, ?_, ?_, ?_, ?_, ?_, ?_, hstop⟩
        · intro j
          simp only
          by_cases hj : j = i
          · subst hj
            rw [Function.update_self, List.map_append, ih.ids, List.length_append, List.length_singleton, List.range_succ, List.map_append]
            rfl
          · rw [Function.update_of_ne hj]; exact ih.ids j
        · intro j
          rw [patch_nodes]
          simp only [enqueue]
          by_cases hj : j = i
          · subst hj
            rw [Function.update_self, Function.update_self, List.map_append, ih.nodes]
            rfl
          · rw [Function.update_of_ne hj, Function.update_of_ne hj]; exact ih.nodes j
        · intro a q u hu
          simp only at hu ⊢
          rw [patch_link] at hu
          split_ifs at hu with hc
          · cases hu
            obtain ⟨k, d, hk1, hk2, hk3⟩ := ih.carrier p (Multiset.mem_cons_self _ _) a q hc
            exact ⟨k, d, hmono _ _ _ hk1, hk2, by rw [hk3]; exact hnew⟩
          · obtain ⟨k, d, hk1, hk2, hk3⟩ := ih.link a q u hu
            exact ⟨k, d, hmono _ _ _ hk1, hk2, hmono _ _ _ hk3⟩
        · intro p' hp' a q hc
          simp only
          rcases Multiset.mem_add.1 hp' with hp' | hp'
          · obtain ⟨q', d, hd, rfl⟩ := mem_scatter.1 (Multiset.mem_coe.1 hp')
            simp only [Option.some.injEq, Prod.mk.injEq] at hc
            obtain ⟨rfl, rfl⟩ := hc
            exact ⟨p.key, d, hnew, hd, rfl⟩
          · obtain ⟨k, d, hk1, hk2, hk3⟩ := hcar p' hp' a q hc
            exact ⟨k, d, hmono _ _ _ hk1, hk2, hk3⟩
        · intro hok k a hka q d hd
          simp only at hka
          simp only [patch_link]
          by_cases hc : p.carrier = some (a, q)
          · left; simp [hc]
          · rcases hcase k a hka with hka | ⟨rfl, rfl⟩
            · rcases ih.linked (hok' hok) k a hka q d hd with h4 | ⟨p', hp', h4⟩
              · left; simpa [hc, enqueue] using h4
              · right
                rcases Multiset.mem_cons.1 hp' with rfl | hp'
                · exact absurd h4 hc
                · exact ⟨p', Multiset.mem_add.2 (.inr hp'), h4⟩
            · right
              exact ⟨⟨d.2, some ((i, (s.seen i).length), q)⟩, Multiset.mem_add.2 (.inl (Multiset.mem_coe.2 (mem_scatter.2 ⟨q, d, hd, rfl⟩))), rfl⟩
        · intro hok
          right
          rcases ih.first (hok' hok) with ⟨h4, h5⟩ | ⟨a, h4⟩
          · have hp : p = ⟨k₀, none⟩ := by
              have : p ∈ ({⟨k₀, none⟩} : Multiset (Pkt n K)) := by rw [← h4]; exact Multiset.mem_cons_self _ _
              exact Multiset.mem_singleton.1 this
            subst hp
            refine ⟨(i, 0), ?_⟩
            simp only [hl, Function.update_self, h5 i]
            rfl
          · refine ⟨a, ?_⟩
            by_cases hj : Build.lane hn (hash k₀) = i
            · simp only [hj, Function.update_self]
              rw [hj] at h4
              rw [List.getElem?_append_left]
              · exact h4
              · exact (List.getElem?_eq_some_iff.1 h4).1
            · simp only [Function.update_of_ne hj]; exact h4
        · intro h0 j
          simp only
          by_cases hj : j = i
          · subst hj
            rw [Function.update_self, List.length_append, List.length_singleton]
            exact hlt h0
          · rw [Function.update_of_ne hj]; exact ih.bound h0 j
        · intro j hj
          have hji : j ≠ i := by rintro rfl; exact hj c1
          simp only [Function.update_of_ne hji]
          exact ih.over j hj

omit [DecidableEq K] in
theorem status_zero {s : Work n K W M} : status s = 0 ↔ ∀ i, s.err i = 0 := by
  have : ∀ (l : List Int) (r : Int), l.foldl (fun r e => if r = 0 then e else r) r = 0 ↔ r = 0 ∧ ∀ e ∈ l, e = 0 := by
    intro l
    induction l with
    | nil => intro r; simp
    | cons a l ih =>
      intro r
      rw [List.foldl_cons, ih]
      by_cases h : r = 0
      · simp [h]
      · simp [h]
  rw [status, this]
  simp

omit [DecidableEq K] in
theorem status_mem {s : Work n K W M} (h : status s ≠ 0) : ∃ i, status s = s.err i := by
  have : ∀ (l : List Int) (r : Int), l.foldl (fun r e => if r = 0 then e else r) r = r ∨ l.foldl (fun r e => if r = 0 then e else r) r ∈ l := by
    intro l
    induction l with
    | nil => intro r; simp
    | cons a l ih =>
      intro r
      rw [List.foldl_cons]
      split_ifs with hr
      · rcases ih a with h | h
        · right; rw [h]; simp
        · right; exact List.mem_cons_of_mem _ h
      · rcases ih r with h | h
        · exact .inl h
        · right; exact List.mem_cons_of_mem _ h
  rcases this ((List.finRange n).map s.err) 0 with h' | h'
  · exact absurd h' h
  · obtain ⟨i, -, hi⟩ := List.mem_map.1 h'
    exact ⟨i, hi.symm⟩

/-- The edges of a node whose links are known. -/
theorem out_eq {J : Type} (es : List (M × K)) (f : Nat → Option J) (φ : K → J) (h : ∀ q e, es[q]? = some e → f q = some (φ e.2)) :
    ((es.map (·.1)).zipIdx.filterMap fun e => (f e.2).map fun t => (e.1, t)) = es.map fun e => (e.1, φ e.2) := by
  rw [List.zipIdx_map, List.filterMap_map]
  have : ∀ x ∈ es.zipIdx, ((fun e : M × Nat => (f e.2).map fun t => (e.1, t)) ∘ Prod.map (·.1) id) x = some (x.1.1, φ x.1.2) := by
    intro x hx
    have := h x.2 x.1 (List.mem_zipIdx_iff_getElem?.1 hx)
    simp [this]
  rw [List.filterMap_congr this]
  have e : es.map (fun e => (e.1, φ e.2)) = (es.zipIdx.map Prod.fst).map fun e => (e.1, φ e.2) := by rw [List.zipIdx_map_fst]
  rw [e, List.map_map, ← List.filterMap_eq_map]
  rfl

/-- At the end, if nothing went wrong, the new nodes are what they should be. -/
theorem depicts {k₀ : K} {s : Work n K W M} (hx : Bag.Reach (task mk limit hash hn) ⟨k₀, none⟩ start (s, 0))
    (hok : ∀ i, s.err i = 0 ∧ s.stop i = false) {keys : List K} (hc : Covers (fun k => (mk.edges k).map (·.2)) k₀ keys) :
    Depicts keys k₀ mk.vertex mk.edges (graph (Build.lane hn (hash k₀)) s.mem) := by
  have hi := inv_reach _ hx
  have hr := Rover.inv_reach (W := rover mk limit hash hn) (a := k₀) (fun i => rfl) trivial rfl _ hx
  simp only at hi hr
  let lane : K → Fin n := fun k => Build.lane hn (hash k)
  let φ : K → Id n := fun k => (((s.seen (lane k)).find? fun e => decide (e.1 = k)).map (·.2)).getD (lane k, 0)
  have hhome : ∀ i k a, (k, a) ∈ s.seen i → lane k = i := fun i k a h => hr.home i k (List.mem_map.2 ⟨_, h, rfl⟩)
  have hmem : ∀ k ∈ keys, (k, φ k) ∈ s.seen (lane k) := by
    intro k hk
    have hv := (Rover.visited_iff hr hok k).2 ((hc.mem k).1 hk)
    obtain ⟨i, hv⟩ := Rover.mem_visited.1 hv
    obtain ⟨⟨k', a⟩, he, rfl⟩ := List.mem_map.1 hv
    have hl := hhome i _ _ he
    simp only at hk ⊢
    rcases hf : (s.seen (lane k')).find? (fun e => decide (e.1 = k')) with _ | d
    · rw [List.find?_eq_none] at hf
      exact absurd (by simp) (hf (k', a) (hl ▸ he))
    · have h1 := List.mem_of_find?_eq_some hf
      have h2 := List.find?_some hf
      simp only [decide_eq_true_eq] at h2
      have : φ k' = d.2 := by simp only [φ, hf]; rfl
      rw [this]
      obtain ⟨d1, d2⟩ := d
      simp only at h2
      subst h2
      exact h1
  have hin : ∀ i k a, (k, a) ∈ s.seen i → k ∈ keys := fun i k a h => (hc.mem k).2 (hr.reach i k (List.mem_map.2 ⟨_, h, rfl⟩))
  have huniq : ∀ i k a, (k, a) ∈ s.seen i → a = φ k := by
    intro i k a h
    have hl := hhome i k a h
    have h2 := hmem k (hin i k a h)
    rw [hl] at h2
    exact congrArg Prod.snd (List.inj_on_of_nodup_map (hr.nodup i) h h2 rfl)
  have hat : ∀ k ∈ keys, (s.mem.nodes (φ k).1)[(φ k).2]? = some (mk.vertex k, (mk.edges k).map (·.1)) := by
    intro k hk
    obtain ⟨j, hj⟩ := List.mem_iff_getElem?.1 (hmem k hk)
    have h1 : ((s.seen (lane k)).map (·.2))[j]? = some (φ k) := by rw [List.getElem?_map, hj]; rfl
    rw [hi.ids, List.getElem?_map] at h1
    have hlt : j < (s.seen (lane k)).length := (List.getElem?_eq_some_iff.1 hj).1
    rw [List.getElem?_range hlt] at h1
    simp only [Option.map_some, Option.some.injEq] at h1
    rw [← h1, hi.nodes, List.getElem?_map, hj]
    rfl
  have hne : ∀ k ∈ keys, (k, φ k) ∈ s.seen (φ k).1 := fun k hk => by rw [id_lane hi.ids (hmem k hk)]; exact hmem k hk
  have hlink : ∀ k ∈ keys, ∀ q e, (mk.edges k)[q]? = some e → s.mem.link (φ k) q = some (φ e.2) := by
    intro k hk q e he
    rcases hi.linked hok k (φ k) (hne k hk) q e he with h1 | ⟨p, hp, -⟩
    · obtain ⟨t, ht⟩ := Option.ne_none_iff_exists'.1 h1
      rw [ht]
      obtain ⟨k', e', h2, h3, h4⟩ := hi.link _ _ _ ht
      have := id_key hi.ids (hne k hk) h2
      subst this
      rw [he] at h3
      cases h3
      rw [huniq _ _ _ h4]
    · simp at hp
  refine ⟨φ, ?_, ?_, ?_, ?_⟩
  · intro k hk k' hk' e
    have h1 := hne k hk
    have h2 := hne k' hk'
    rw [← e] at h2
    exact id_key hi.ids h1 h2
  · have e1 : (graph (Build.lane hn (hash k₀)) s.mem).nodes = ((rover mk limit hash hn).visited s).map φ := by
      simp only [graph, Rover.visited, List.map_flatMap]
      refine List.flatMap_congr fun i _ => ?_
      rw [hi.nodes, List.length_map, ← hi.ids]
      simp only [rover, List.map_map]
      refine List.map_congr_left fun e he => ?_
      exact huniq i e.1 e.2 he
    rw [e1]
    refine List.Perm.map _ ?_
    refine (List.perm_ext_iff_of_nodup (Rover.visited_nodup hr) hc.nodup).2 fun m => ?_
    rw [Rover.visited_iff hr hok, hc.mem]
  · rcases hi.first hok with ⟨h1, -⟩ | ⟨a, ha⟩
    · exact absurd h1.symm (by simp)
    · have h1 := huniq _ _ _ (List.mem_of_getElem? ha)
      rw [← h1]
      have h2 : ((s.seen (Build.lane hn (hash k₀))).map (·.2))[0]? = some a := by rw [List.getElem?_map, ha]; rfl
      rw [hi.ids, List.getElem?_map, List.getElem?_range (List.getElem?_eq_some_iff.1 ha).1] at h2
      simp only [Option.map_some, Option.some.injEq] at h2
      exact h2
  · intro k hk
    refine ⟨by simp only [graph, hat k hk]; rfl, ?_, rfl⟩
    simp only [graph, hat k hk, Option.map_some, Option.getD_some]
    rw [out_eq (mk.edges k) (s.mem.link (φ k)) φ (hlink k hk)]

theorem killed_eq (i : Fin n) (s : Work n K W M) (p : Pkt n K) : (handle mk limit i s p).1.killed = s.killed := by
  obtain ⟨sample, stop, -, -, -, h⟩ := handle_cases (mk := mk) (limit := limit) i s p
  rcases h with ⟨-, e⟩ | ⟨-, -, t, -, e⟩ | ⟨-, -, -, -, -, e⟩ | ⟨-, -, -, -, e⟩ <;> rw [e]

/-- What's returned: never a graph that isn't what it should be. -/
theorem launched_ok {k₀ : K} {keys : List K} (hc : Covers (fun k => (mk.edges k).map (·.2)) k₀ keys)
    {h : Gr (Id n) (Option W) M} (hl : Launched mk limit hash hn k₀ (.ok h)) :
    Depicts keys k₀ mk.vertex mk.edges h ∧ (limit ≠ 0 → ∀ i, (keys.filter fun k => decide (Build.lane hn (hash k) = i)).length ≤ limit) := by
  obtain ⟨x, hx, hd, hr⟩ := hl
  have hb := Rover.done_bag hn hx hd
  split_ifs at hr with h1 h2
  cases hr
  have hi := inv_reach _ hb
  have hrv := Rover.inv_reach (W := rover mk limit hash hn) (a := k₀) (fun i => rfl) trivial rfl _ hb
  have hok : ∀ i, x.g.err i = 0 ∧ x.g.stop i = false :=
    fun i => ⟨status_zero.1 (by simpa using h1) i, hi.stop (by simpa using h2) i⟩
  refine ⟨depicts hb hok hc, fun h0 i => ?_⟩
  refine le_trans ?_ (hi.bound h0 i)
  rw [← List.length_map (f := fun e : K × Id n => e.1) (as := x.g.seen i)]
  refine List.Subperm.length_le (List.subperm_of_subset (hc.nodup.filter _) fun k hk => ?_)
  obtain ⟨hk, hl⟩ := List.mem_filter.1 hk
  obtain ⟨j, hj⟩ := Rover.mem_visited.1 ((Rover.visited_iff hrv hok k).2 ((hc.mem k).1 hk))
  have := hrv.home j k hj
  rw [← (of_decide_eq_true hl), show Build.lane hn (hash k) = j from this]
  exact hj

/-- An error is an overflow or a kill. -/
theorem launched_error {k₀ : K} {keys : List K} (hc : Covers (fun k => (mk.edges k).map (·.2)) k₀ keys)
    {e : Int} (hl : Launched mk limit hash hn k₀ (.error e : Except Int (Gr (Id n) (Option W) M))) :
    e = Build.intKil ∨ e = Build.intOvf ∧ limit ≠ 0 ∧ ∃ i, limit < (keys.filter fun k => decide (Build.lane hn (hash k) = i)).length := by
  obtain ⟨x, hx, hd, hr⟩ := hl
  have hb := Rover.done_bag hn hx hd
  have hi := inv_reach _ hb
  have hrv := Rover.inv_reach (W := rover mk limit hash hn) (a := k₀) (fun i => rfl) trivial rfl _ hb
  split_ifs at hr with h1 h2
  · right
    obtain ⟨i, hs⟩ := status_mem h1
    obtain ⟨h3, h4, h5, k, h6, h7, h8⟩ := hi.over i (by rw [← hs]; exact h1)
    cases hr
    refine ⟨hs.trans h3, h4, i, ?_⟩
    have hsub : List.Subperm (k :: (x.g.seen i).map (·.1)) (keys.filter fun k => decide (Build.lane hn (hash k) = i)) := by
      refine List.subperm_of_subset (List.nodup_cons.2 ⟨h6, hrv.nodup i⟩) fun k' hk' => ?_
      rcases List.mem_cons.1 hk' with rfl | hk'
      · exact List.mem_filter.2 ⟨(hc.mem _).2 h8, by simpa using h7⟩
      · exact List.mem_filter.2 ⟨(hc.mem _).2 (hrv.reach i k' hk'), by simpa using (show Build.lane hn (hash k') = i from hrv.home i k' hk')⟩
    have := hsub.length_le
    rw [List.length_cons, List.length_map] at this
    exact lt_of_le_of_lt h5 this
  · left; cases hr; rfl

/-- The result depends on the kill flag, if there's no limit. -/
theorem launched_limitless {k₀ : K} {s : State n (Pkt n K) (Work n K W M)} (hx : Net.Reach (task mk 0 hash hn) ⟨k₀, none⟩ start s) (hd : s.main = .done) :
    status s.g = 0 := by
  refine status_zero.2 fun i => ?_
  by_contra h
  exact ((inv_reach _ (Rover.done_bag hn hx hd)).over i h).2.1 rfl

/-- Every run ends. -/
theorem ends {k₀ : K} {keys : List K} (hc : Covers (fun k => (mk.edges k).map (·.2)) k₀ keys) :
    ∀ x, Bag.Reach (task mk limit hash hn) ⟨k₀, none⟩ start x → Acc (fun y x => Bag.Handles (task mk limit hash hn) x y) x :=
  (rover mk limit hash hn).acc (fun i => rfl) trivial rfl keys fun m hm => (hc.mem m).2 hm

/-- Without a kill request there's a graph unless there's an overflow. -/
theorem unkilled {k₀ : K} {keys : List K} (hc : Covers (fun k => (mk.edges k).map (·.2)) k₀ keys) :
    ∃ r, Launched mk limit hash hn k₀ r ∧ r ≠ .error Build.intKil := by
  obtain ⟨s, hs, hd, hk⟩ := exists_done_inv (T := task mk limit hash hn) hn (ends hc) (fun g => g.killed = 0) rfl (fun i g p h => by
    change (handle mk limit i g p).1.killed = 0
    rw [killed_eq]; exact h)
  refine ⟨_, ⟨s, hs, hd, rfl⟩, ?_⟩
  split_ifs with h1 h2
  · intro h
    obtain ⟨i, e⟩ := status_mem h1
    have := ((inv_reach _ (Rover.done_bag hn hs hd)).over i (by rw [← e]; exact h1)).1
    simp only [Except.error.injEq] at h
    rw [← e, h] at this
    exact absurd this (by decide)
  · exact absurd hk h2
  · exact fun h => by cases h

end Cru.Spawn
