import Verif.Proofs.SplitAcc

/-! # Nothing is lost or used after it's freed while splitting -/

namespace Cru.SplitAcc

open Net Fold
open MergeAcc (Bal)
open Request (Env alloc edge destroy_frame alloc_bal)
open Split (Twin)

variable {n : Nat} {N V : Type} {c : Env} {pf : Option Nat}

/-- Nodes on the ports' lists. -/
def stocked (h : Heap n N V) : Multiset (Twin N) := ∑ i, (h.stock i : Multiset (Twin N))

/-- Nodes on the ports' lists and on their way there. -/
def nodes (h : Heap n N V) (bag : Multiset (Pkt N V)) : Multiset (Twin N) := stocked h + bag.filterMap Pkt.fresh

/-- Edges of nodes and those on their way there. -/
def addresses [Fintype N] (h : Heap n N V) (bag : Multiset (Pkt N V)) : Multiset Nat := ∑ t : Twin N, ids (h.out t) + bag.filterMap Pkt.edge

structure Inv [Fintype N] (c : Env) (pf : Option Nat) (seen : N → Prop) (h : Heap n N V) (bag : Multiset (Pkt N V)) : Prop where
  bad : h.bad = false
  idsNodup : (addresses h bag).Nodup
  idsBelow : ∀ k ∈ addresses h bag, k < h.next
  carNodup : (bag.filterMap Pkt.carrier).Nodup
  car : ∀ x ∈ bag.filterMap Pkt.carrier, x.2 ∈ ids (h.out x.1) ∧ seen x.1.1
  dst : ∀ m, ¬ seen m → ∀ e ∈ h.out (m, false), e.dst.2 = false
  new : ∀ m, ¬ seen m → (m, true) ∉ nodes h bag
  nodup : (nodes h bag).Nodup
  given : ∀ m, (m, false) ∈ nodes h bag
  blank : ∀ m, (m, true) ∉ nodes h bag → Blank h m
  target : ∀ t e, .connect t e ∈ bag → seen t.1 ∧ t ∈ nodes h bag
  wf : h.world.WF
  ledger : h.world.made = h.world.freed + (allHeld c pf h + sent c bag)

variable [Fintype N] {seen : N → Prop} {h : Heap n N V} {bag rest : Multiset (Pkt N V)}

theorem sent_add (c : Env) (s t : Multiset (Pkt N V)) : sent c (s + t) = sent c s + sent c t := by simp [sent]

theorem sent_cons (c : Env) (p : Pkt N V) (t : Multiset (Pkt N V)) : sent c (p ::ₘ t) = p.held c + sent c t := by simp [sent]

theorem sent_zero (c : Env) (ps : List (Pkt N V)) (h : ∀ p ∈ ps, p.held c = 0) : sent c (ps : Multiset (Pkt N V)) = 0 := by
  unfold sent
  rw [Multiset.map_coe, Multiset.sum_coe]
  exact List.sum_eq_zero fun x hx => by obtain ⟨p, hp, rfl⟩ := List.mem_map.1 hx; exact h p hp

theorem made_of_bal {w w' : World} {a b : Multiset (Nat × Nat)} (hb : Bal w w' a b) (hw : w.WF) (he : w.made = w.freed + a) :
    w'.WF ∧ w'.made = w'.freed + b := ⟨hb.wf hw, (Request.Exact.bal hb hw he).2⟩

theorem fresh_nodup {T T' F : Multiset Nat} {k k' : Nat} (h1 : T.Nodup) (h2 : ∀ x ∈ T, x < k) (h3 : F.Nodup) (h4 : k ≤ k')
    (h5 : ∀ x ∈ F, k ≤ x ∧ x < k') (h6 : T' ≤ T + F) : T'.Nodup ∧ ∀ x ∈ T', x < k' := by
  refine ⟨Multiset.nodup_of_le h6 ?_, fun x hx => ?_⟩
  · rw [Multiset.nodup_add]
    refine ⟨h1, h3, ?_⟩
    rw [Multiset.disjoint_left]
    intro x hx hx'
    have := h2 x hx
    have := (h5 x hx').1
    omega
  · rcases Multiset.mem_add.1 (Multiset.mem_of_le h6 hx) with h | h
    · exact lt_of_lt_of_le (h2 x h) h4
    · exact (h5 x h).2

theorem out_nodup (hi : (addresses h bag).Nodup) [DecidableEq N] (t : Twin N) : (ids (h.out t)).Nodup := by
  refine Multiset.nodup_of_le ?_ hi
  obtain ⟨r, h1, -⟩ := sum_one (fun t => ids (h.out t)) (fun t => ids (h.out t)) t (fun _ _ => rfl)
  unfold addresses
  rw [h1, add_assoc]
  exact Multiset.le_add_right _ _

theorem filterMap_of_none {α β : Type} {f : α → Option β} {a : α} {s : Multiset α} (h : f a = none) : (a ::ₘ s).filterMap f = s.filterMap f :=
  Multiset.filterMap_cons_none a s h

theorem filterMap_le {α β : Type} (f : α → Option β) (a : α) (s : Multiset α) : s.filterMap f ≤ (a ::ₘ s).filterMap f := by
  rw [Multiset.filterMap_cons]; exact Multiset.le_add_left _ _

/-- The history may go on. -/
theorem Inv.world (hi : Inv c pf seen h bag) {w : World} (hb : ∀ x, Bal h.world w x x) : Inv c pf seen { h with world := w } bag :=
  have := made_of_bal (hb _) hi.wf hi.ledger
  ⟨hi.bad, hi.idsNodup, hi.idsBelow, hi.carNodup, hi.car, hi.dst, hi.new, hi.nodup, hi.given, hi.blank, hi.target, this.1, this.2⟩

/-- A packet that brings no node may be dropped if what it holds is freed. -/
theorem Inv.drop {p : Pkt N V} (hi : Inv c pf seen h (p ::ₘ rest)) (hp : p.fresh = none) {w : World}
    (hb : ∀ x, Bal h.world w (p.held c + x) x) : Inv c pf seen { h with world := w } rest := by
  have e1 : nodes h (p ::ₘ rest) = nodes h rest := by unfold nodes; rw [filterMap_of_none hp]
  have e2 : addresses h rest ≤ addresses h (p ::ₘ rest) := add_le_add_right (filterMap_le _ _ _) _
  have e3 := filterMap_le Pkt.carrier p rest
  have := made_of_bal ((hb (allHeld c pf h + sent c rest)).cast (by rw [sent_cons]; abel) rfl) hi.wf hi.ledger
  exact ⟨hi.bad, Multiset.nodup_of_le e2 hi.idsNodup, fun k hk => hi.idsBelow k (Multiset.mem_of_le e2 hk), Multiset.nodup_of_le e3 hi.carNodup,
    fun x hx => hi.car x (Multiset.mem_of_le e3 hx), hi.dst, fun m hm => e1 ▸ hi.new m hm, e1 ▸ hi.nodup, fun m => e1 ▸ hi.given m,
    fun m hm => hi.blank m (by rw [e1]; exact hm), fun t e ht => e1 ▸ hi.target t e (Multiset.mem_cons_of_mem ht), this.1, this.2⟩

theorem stocked_keep (i : Fin n) (h : Heap n N V) (t : Twin N) : stocked (keep i h t) = t ::ₘ stocked h := by
  obtain ⟨r, h1, h2⟩ := sum_lane (fun j => (h.stock j : Multiset (Twin N))) (fun j => ((keep i h t).stock j : Multiset (Twin N))) i
    (fun j hj => by simp [keep, hj])
  unfold stocked
  rw [h1, h2]
  rw [← Multiset.cons_add]
  simp [keep]

/-- A new node is stored. -/
theorem Inv.keep {m : N} (hi : Inv c pf seen h (.create m ::ₘ rest)) (i : Fin n) : Inv c pf seen (keep i h (m, true)) rest := by
  have e1 : nodes (SplitAcc.keep i h (m, true)) rest = nodes h (.create m ::ₘ rest) := by
    unfold nodes
    rw [stocked_keep, Multiset.filterMap_cons_some Pkt.fresh (.create m) rest rfl, Multiset.cons_add, Multiset.add_cons]
  have e2 : addresses h rest = addresses h (.create m ::ₘ rest) := by unfold addresses; rw [filterMap_of_none rfl]
  have e3 : rest.filterMap Pkt.carrier = (Pkt.create m ::ₘ rest).filterMap Pkt.carrier := (filterMap_of_none rfl).symm
  have e4 : sent c (.create m ::ₘ rest) = sent c rest := by rw [sent_cons]; simp [Pkt.held]
  exact ⟨hi.bad, e2 ▸ hi.idsNodup, fun k hk => hi.idsBelow k (e2 ▸ hk), e3 ▸ hi.carNodup, fun x hx => hi.car x (e3 ▸ hx), hi.dst,
    fun x hx => e1 ▸ hi.new x hx, e1 ▸ hi.nodup, fun x => e1 ▸ hi.given x, fun x hx => hi.blank x (e1 ▸ hx), fun t e ht => e1 ▸ hi.target t e (Multiset.mem_cons_of_mem ht), hi.wf, e4 ▸ hi.ledger⟩

theorem allHeld_out [DecidableEq N] (c : Env) (pf : Option Nat) (h : Heap n N V) (t : Twin N) (es : List (Edge N V)) :
    ∃ r, allHeld c pf h = labels c (h.out t) + r ∧ allHeld c pf { h with out := Function.update h.out t es } = labels c es + r := by
  obtain ⟨r, h1, h2⟩ := sum_one (fun x => held c h x + owned pf (h.prop x))
    (fun x => held c { h with out := Function.update h.out t es } x + owned pf (h.prop x)) t (fun x hx => by simp [held, hx])
  refine ⟨owned c.vFree (h.vertex t) + owned pf (h.prop t) + r + ∑ i, heldOld c (h.old i), ?_, ?_⟩
  · unfold allHeld
    rw [h1]; simp only [held]; abel
  · unfold allHeld
    show ∑ x, (held c { h with out := Function.update h.out t es } x + owned pf (h.prop x)) + _ = _
    rw [h2]
    simp only [held, Function.update_self]; abel

theorem addresses_out [DecidableEq N] (h : Heap n N V) (t : Twin N) (es : List (Edge N V)) :
    ∃ r, (∑ x, ids (h.out x)) = ids (h.out t) + r ∧ (∑ x, ids (Function.update h.out t es x)) = ids es + r := by
  obtain ⟨r, h1, h2⟩ := sum_one (fun x => ids (h.out x)) (fun x => ids (Function.update h.out t es x)) t (fun x hx => by simp [hx])
  exact ⟨r, h1, by rw [h2, Function.update_self]⟩

/-- An edge is attached. -/
theorem Inv.connect [DecidableEq N] {t : Twin N} {e : Edge N V} (hi : Inv c pf seen h (.connect t e ::ₘ rest)) :
    Inv c pf seen { h with out := Function.update h.out t (e :: h.out t) } rest := by
  obtain ⟨ht, ht'⟩ := hi.target t e (Multiset.mem_cons_self _ _)
  have hn : nodes h (.connect t e ::ₘ rest) = nodes h rest := by unfold nodes; rw [filterMap_of_none rfl]
  rw [hn] at ht'
  obtain ⟨r, a1, a2⟩ := allHeld_out c pf h t (e :: h.out t)
  obtain ⟨q, b1, b2⟩ := addresses_out h t (e :: h.out t)
  have e2 : addresses { h with out := Function.update h.out t (e :: h.out t) } rest = addresses h (.connect t e ::ₘ rest) := by
    unfold addresses
    rw [b1]
    show (∑ x, ids (Function.update h.out t (e :: h.out t) x)) + _ = _
    rw [b2, Multiset.filterMap_cons_some Pkt.edge (.connect t e) rest rfl]
    simp only [ids_cons, Multiset.cons_add, Multiset.add_cons]
  have e3 : rest.filterMap Pkt.carrier = (Pkt.connect t e ::ₘ rest).filterMap Pkt.carrier := (filterMap_of_none rfl).symm
  refine ⟨hi.bad, e2 ▸ hi.idsNodup, fun k hk => hi.idsBelow k (e2 ▸ hk), e3 ▸ hi.carNodup, fun x hx => ?_, fun m hm => ?_,
    fun x hx => hn ▸ hi.new x hx, hn ▸ hi.nodup, fun x => hn ▸ hi.given x, fun x hx => ?_, fun x y hx => hn ▸ hi.target x y (Multiset.mem_cons_of_mem hx), hi.wf, ?_⟩
  · obtain ⟨c1, c2⟩ := hi.car x (e3 ▸ hx)
    refine ⟨?_, c2⟩
    dsimp only
    by_cases hxt : x.1 = t
    · rw [hxt] at c1 ⊢
      rw [Function.update_self, ids_cons]
      exact Multiset.mem_cons_of_mem c1
    · rw [Function.update_of_ne hxt]; exact c1
  · have : ((m, false) : Twin N) ≠ t := fun e => by
      subst e; exact hm ht
    dsimp only
    rw [Function.update_of_ne this]
    exact hi.dst m hm
  · obtain ⟨d1, d2, d3⟩ := hi.blank x (by rw [hn]; exact hx)
    have : ((x, true) : Twin N) ≠ t := fun e => by
      subst e; exact hx ht'
    exact ⟨d1, d2, by dsimp only; rw [Function.update_of_ne this]; exact d3⟩
  · show h.world.made = _
    rw [hi.ledger, sent_cons, a1, a2, labels_cons]
    simp only [Pkt.held]; abel

/-- An edge is deleted. -/
theorem Inv.disconnect [DecidableEq N] {t : Twin N} {e : Edge N V} (hi : Inv c pf seen h (.disconnect t e.id ::ₘ rest)) (he : e ∈ h.out t) :
    Inv c pf seen { h with out := Function.update h.out t ((h.out t).filter fun a => a.id != e.id)
                           world := destroy c.fails c.eFree e.label h.world } rest := by
  obtain ⟨r, a1, a2⟩ := allHeld_out c pf h t ((h.out t).filter fun a => a.id != e.id)
  obtain ⟨q, b1, b2⟩ := addresses_out h t ((h.out t).filter fun a => a.id != e.id)
  have hn : nodes h (.disconnect t e.id ::ₘ rest) = nodes h rest := by unfold nodes; rw [filterMap_of_none rfl]
  have e2 : addresses { h with out := Function.update h.out t ((h.out t).filter fun a => a.id != e.id)
                               world := destroy c.fails c.eFree e.label h.world } rest ≤ addresses h (.disconnect t e.id ::ₘ rest) := by
    unfold addresses
    show (∑ x, ids (Function.update h.out t ((h.out t).filter fun a => a.id != e.id) x)) + _ ≤ _
    rw [b1, b2, delete_ids, filterMap_of_none (f := Pkt.edge) (a := Pkt.disconnect t e.id) rfl]
    gcongr
    exact Multiset.filter_le _ _
  have e3 : (Pkt.disconnect t e.id ::ₘ rest).filterMap Pkt.carrier = (t, e.id) ::ₘ rest.filterMap Pkt.carrier :=
    Multiset.filterMap_cons_some _ _ _ rfl
  have hc := hi.carNodup
  rw [e3, Multiset.nodup_cons] at hc
  have := made_of_bal ((destroy_frame c c.eFree e.label h.world (labels c ((h.out t).filter fun a => a.id != e.id) + r + sent c rest)).cast
    (by rw [sent_cons, a1, delete_labels (c := c) (h.out t) e he (out_nodup hi.idsNodup t)]; simp only [Pkt.held]; abel : _ = allHeld c pf h + sent c (.disconnect t e.id ::ₘ rest))
    (by rw [← a2] : _ = allHeld c pf { h with out := Function.update h.out t ((h.out t).filter fun a => a.id != e.id) } + sent c rest)) hi.wf hi.ledger
  refine ⟨hi.bad, Multiset.nodup_of_le e2 hi.idsNodup, fun k hk => hi.idsBelow k (Multiset.mem_of_le e2 hk), hc.2, fun x hx => ?_, fun m hm => ?_,
    fun x hx => hn ▸ hi.new x hx, hn ▸ hi.nodup, fun x => hn ▸ hi.given x, fun x hx => ?_, fun x y hx => hn ▸ hi.target x y (Multiset.mem_cons_of_mem hx), this.1, this.2⟩
  · obtain ⟨c1, c2⟩ := hi.car x (by rw [e3]; exact Multiset.mem_cons_of_mem hx)
    refine ⟨?_, c2⟩
    dsimp only
    by_cases hxt : x.1 = t
    · have : x.2 ≠ e.id := fun h => hc.1 (by rw [← hxt, ← h]; exact hx)
      rw [hxt] at c1 ⊢
      rw [Function.update_self, delete_ids, Multiset.mem_filter]
      exact ⟨c1, this⟩
    · rw [Function.update_of_ne hxt]; exact c1
  · dsimp only
    by_cases h' : ((m, false) : Twin N) = t
    · subst h'
      rw [Function.update_self]
      exact fun a ha => hi.dst m hm a (List.mem_of_mem_filter ha)
    · rw [Function.update_of_ne h']
      exact hi.dst m hm
  · obtain ⟨d1, d2, d3⟩ := hi.blank x (by rw [hn]; exact hx)
    refine ⟨d1, d2, ?_⟩
    dsimp only
    by_cases h' : ((x, true) : Twin N) = t
    · subst h'; rw [Function.update_self, d3]; rfl
    · rw [Function.update_of_ne h']; exact d3

/-- A node and its edges are divided, if it hasn't been seen. -/
theorem Inv.out [DecidableEq N] {m : N} {h' : Heap n N V} {ps : List (Pkt N V)} (hi : Inv c pf seen h bag) (hm : ¬ seen m) (ho : Out c pf m h h' ps)
    (hf : ps.filterMap Pkt.fresh = [] ∧ Blank h' m ∨ ps.filterMap Pkt.fresh = [(m, true)]) :
    Inv c pf (fun x => x = m ∨ seen x) h' ((ps : Multiset (Pkt N V)) + bag) := by
  have e1 : nodes h' ((ps : Multiset (Pkt N V)) + bag) = (ps.filterMap Pkt.fresh : Multiset (Twin N)) + nodes h bag := by
    unfold nodes stocked
    rw [ho.stock, Multiset.filterMap_add, Multiset.filterMap_coe]; abel
  have e0 : nodes h bag ≤ nodes h' ((ps : Multiset (Pkt N V)) + bag) := by rw [e1]; exact Multiset.le_add_left _ _
  obtain ⟨r, a1, a2⟩ := sum_twins (fun t => held c h t + owned pf (h.prop t)) (fun t => held c h' t + owned pf (h'.prop t)) m
    (fun t ht => by have := ho.rest t ht; simp [held, this])
  obtain ⟨q, b1, b2⟩ := sum_twins (fun t => ids (h.out t)) (fun t => ids (h'.out t)) m (fun t ht => by rw [(ho.rest t ht).2.2])
  obtain ⟨F, f1, f2, f3, f4⟩ := ho.addr
  have he : (ps : Multiset (Pkt N V)).filterMap Pkt.edge = 0 := by
    rw [Multiset.filterMap_coe, filterMap_none _ _ fun p hp => (ho.edges p hp).1]; rfl
  have e2 : addresses h' ((ps : Multiset (Pkt N V)) + bag) ≤ addresses h bag + F := by
    unfold addresses
    rw [b1, b2, Multiset.filterMap_add, he, zero_add]
    calc _ ≤ ids (h.out (m, false)) + ids (h.out (m, true)) + F + q + bag.filterMap Pkt.edge := by gcongr
      _ = _ := by abel
  obtain ⟨n1, n2⟩ := fresh_nodup hi.idsNodup hi.idsBelow f1 f2 f3 e2
  obtain ⟨ks, ls, k1, k2, k3⟩ := ho.carriers
  have e3 : ((ps : Multiset (Pkt N V)) + bag).filterMap Pkt.carrier =
      ↑((ks.map fun k => ((m, true), k)) ++ ls.map fun k => ((m, false), k)) + bag.filterMap Pkt.carrier := by
    rw [Multiset.filterMap_add, Multiset.filterMap_coe, k3]
  have d1 : ∀ x ∈ bag.filterMap Pkt.carrier, x.1.1 ≠ m := fun x hx e => hm (e ▸ (hi.car x hx).2)
  have d2 : ∀ x ∈ ((ks.map fun k => (((m, true) : Twin N), k)) ++ ls.map fun k => ((m, false), k)), x.1.1 = m ∧ x.2 ∈ ids (h'.out x.1) := by
    intro x hx
    rcases List.mem_append.1 hx with hx | hx
    · obtain ⟨k, hk, rfl⟩ := List.mem_map.1 hx
      exact ⟨rfl, Multiset.mem_coe.2 (k1.subset hk)⟩
    · obtain ⟨k, hk, rfl⟩ := List.mem_map.1 hx
      exact ⟨rfl, Multiset.mem_coe.2 (k2.subset hk)⟩
  have o1 : ((h'.out (m, true)).map Edge.id).Nodup := Multiset.coe_nodup.1 (out_nodup n1 (m, true))
  have o2 : ((h'.out (m, false)).map Edge.id).Nodup := Multiset.coe_nodup.1 (out_nodup n1 (m, false))
  have hl := made_of_bal ((ho.bal (r + sent c bag)).cast (by rw [allHeld, a1, near]; abel : _ = allHeld c pf h + sent c bag)
    (by rw [allHeld, a2, near, sent_add, sent_zero c ps fun p hp => (ho.edges p hp).2]; abel :
      _ = allHeld c pf h' + sent c ((ps : Multiset (Pkt N V)) + bag))) hi.wf hi.ledger
  refine ⟨ho.bad.trans hi.bad, n1, n2, ?_, fun x hx => ?_, fun x hx => ?_, fun x hx => ?_, ?_, fun x => Multiset.mem_of_le e0 (hi.given x), fun x hx => ?_, fun t e ht => ?_, hl.1, hl.2⟩
  · rw [e3, Multiset.nodup_add]
    refine ⟨?_, hi.carNodup, ?_⟩
    · rw [Multiset.coe_nodup, List.nodup_append]
      refine ⟨(o1.sublist k1).map fun _ _ => by simp, (o2.sublist k2).map fun _ _ => by simp, ?_⟩
      intro x hx y hy hxy
      subst hxy
      obtain ⟨k, -, rfl⟩ := List.mem_map.1 hx
      simp at hy
    · rw [Multiset.disjoint_left]
      intro x hx hx'
      exact d1 x hx' (d2 x (Multiset.mem_coe.1 hx)).1
  · rw [e3] at hx
    rcases Multiset.mem_add.1 hx with hx | hx
    · have := d2 x (Multiset.mem_coe.1 hx)
      exact ⟨this.2, .inl this.1⟩
    · refine ⟨?_, .inr (hi.car x hx).2⟩
      rw [(ho.rest x.1 (d1 x hx)).2.2]
      exact (hi.car x hx).1
  · push Not at hx
    rw [(ho.rest (x, false) hx.1).2.2]
    exact hi.dst x hx.2
  · push Not at hx
    rw [e1, Multiset.mem_add]
    push Not
    refine ⟨?_, hi.new x hx.2⟩
    rcases hf with hf | hf
    · rw [hf.1]; simp
    · rw [hf]; simp [hx.1]
  · rw [e1, Multiset.nodup_add]
    rcases hf with hf | hf
    · rw [hf.1]; simpa using hi.nodup
    · rw [hf]
      refine ⟨by simp, hi.nodup, ?_⟩
      rw [Multiset.disjoint_left]
      intro x hx
      have : x = (m, true) := by simpa using hx
      rw [this]
      exact hi.new m hm
  · by_cases hxm : x = m
    · subst hxm
      rcases hf with hf | hf
      · exact hf.2
      · exact absurd (by rw [e1, hf]; simp) hx
    · obtain ⟨d1, d2, d3⟩ := hi.blank x fun h => hx (Multiset.mem_of_le e0 h)
      obtain ⟨c1, c2, c3⟩ := ho.rest (x, true) hxm
      exact ⟨c1.trans d1, c2.trans d2, c3.trans d3⟩
  · rcases Multiset.mem_add.1 ht with ht | ht
    · exact absurd (ho.edges _ (Multiset.mem_coe.1 ht)).1 (by simp [Pkt.edge])
    · have := hi.target t e ht
      exact ⟨.inr this.1, Multiset.mem_of_le e0 this.2⟩

/-- An edge to a divided node is replaced. -/
theorem Inv.inward [DecidableEq N] {m : N} {s : Twin N} {k : Nat} {h' : Heap n N V} {ps : List (Pkt N V)}
    (hi : Inv c pf seen h (.visit m (some (s, k)) ::ₘ rest)) (ho : In c s k h h' ps) : Inv c pf seen h' ((ps : Multiset (Pkt N V)) + rest) := by
  obtain ⟨g1, g2, g3, g4, g5⟩ := ho.same
  have hsk := hi.car (s, k) (by rw [Multiset.filterMap_cons_some Pkt.carrier (.visit m (some (s, k))) rest rfl]; simp)
  have hs : s ∈ nodes h (.visit m (some (s, k)) ::ₘ rest) := by
    obtain ⟨x, b⟩ := s
    cases b
    · exact hi.given x
    · by_contra hx
      have := (hi.blank x hx).2.2
      rw [this] at hsk
      simp at hsk
  have hfr : (ps : Multiset (Pkt N V)).filterMap Pkt.fresh = 0 := by
    rcases ho.pkts with ⟨rfl, -⟩ | ⟨e, rfl, -⟩ | ⟨rfl, -⟩ <;> rfl
  have e1 : nodes h' ((ps : Multiset (Pkt N V)) + rest) = nodes h (.visit m (some (s, k)) ::ₘ rest) := by
    unfold nodes stocked
    rw [g3, Multiset.filterMap_add, hfr, zero_add, filterMap_of_none (f := Pkt.fresh) (a := Pkt.visit m (some (s, k))) rfl]
  obtain ⟨r, a1, a2⟩ := sum_one (fun t => held c h t + owned pf (h.prop t)) (fun t => held c h' t + owned pf (h'.prop t)) s
    (fun t ht => by simp [held, g1, g2, ho.rest t ht])
  obtain ⟨q, b1, b2⟩ := sum_one (fun t => ids (h.out t)) (fun t => ids (h'.out t)) s (fun t ht => by rw [ho.rest t ht])
  have b3 : ∑ t, ids (h'.out t) = ∑ t, ids (h.out t) := by rw [b1, b2, ho.ids]
  have e2 : addresses h' ((ps : Multiset (Pkt N V)) + rest) = (ps : Multiset (Pkt N V)).filterMap Pkt.edge + addresses h (.visit m (some (s, k)) ::ₘ rest) := by
    unfold addresses
    rw [b3, Multiset.filterMap_add, filterMap_of_none (f := Pkt.edge) (a := Pkt.visit m (some (s, k))) rfl]; abel
  have e3 : (Pkt.visit m (some (s, k)) ::ₘ rest).filterMap Pkt.carrier = (s, k) ::ₘ rest.filterMap Pkt.carrier :=
    Multiset.filterMap_cons_some _ _ _ rfl
  have e4 : ((ps : Multiset (Pkt N V)) + rest).filterMap Pkt.carrier ≤ (Pkt.visit m (some (s, k)) ::ₘ rest).filterMap Pkt.carrier := by
    rw [e3, Multiset.filterMap_add, ← Multiset.singleton_add]
    gcongr
    rcases ho.pkts with ⟨rfl, -⟩ | ⟨e, rfl, -⟩ | ⟨rfl, -⟩
    · exact Multiset.zero_le _
    · exact Multiset.zero_le _
    · exact le_of_eq rfl
  obtain ⟨n1, n2⟩ : (addresses h' ((ps : Multiset (Pkt N V)) + rest)).Nodup ∧ ∀ x ∈ addresses h' ((ps : Multiset (Pkt N V)) + rest), x < h'.next := by
    rcases ho.pkts with ⟨rfl, hx⟩ | ⟨e, rfl, he, hx⟩ | ⟨rfl, hx⟩
    · rw [e2, hx]; exact ⟨by simpa using hi.idsNodup, by simpa using hi.idsBelow⟩
    · rw [hx]
      refine fresh_nodup (F := {h.next}) hi.idsNodup hi.idsBelow (by simp) (by omega) (by simp) ?_
      rw [e2, add_comm]
      refine add_le_add_right (le_of_eq ?_) _
      show ((Pkt.connect s e ::ₘ 0).filterMap Pkt.edge : Multiset Nat) = _
      rw [Multiset.filterMap_cons_some Pkt.edge (.connect s e) 0 rfl, he]; rfl
    · rw [e2, hx]
      have : ((([.disconnect s k] : List (Pkt N V)) : Multiset (Pkt N V)).filterMap Pkt.edge) = 0 := rfl
      rw [this, zero_add]; exact ⟨hi.idsNodup, hi.idsBelow⟩
  have hl := made_of_bal ((ho.bal (owned c.vFree (h.vertex s) + owned pf (h.prop s) + r + ∑ i, heldOld c (h.old i) + sent c rest)).cast
    (by rw [allHeld, a1, sent_cons]; simp only [Pkt.held, held]; abel : _ = allHeld c pf h + sent c (.visit m (some (s, k)) ::ₘ rest))
    (by rw [allHeld, a2, sent_add, g5]; simp only [sent, held, g1, g2, Multiset.map_coe, Multiset.sum_coe]; abel :
      _ = allHeld c pf h' + sent c ((ps : Multiset (Pkt N V)) + rest))) hi.wf hi.ledger
  have hout : ∀ t, ids (h'.out t) = ids (h.out t) := by
    intro t
    by_cases ht : t = s
    · rw [ht, ho.ids]
    · rw [ho.rest t ht]
  refine ⟨g4.trans hi.bad, n1, n2, Multiset.nodup_of_le e4 hi.carNodup, fun x hx => ?_, fun x hx => ?_, fun x hx => ?_, ?_, fun x => ?_, fun x hx => ?_, fun t e ht => ?_, hl.1, hl.2⟩
  · rw [hout]; exact hi.car x (Multiset.mem_of_le e4 hx)
  · have : ((x, false) : Twin N) ≠ s := fun h => hx (by subst h; exact hsk.2)
    rw [ho.rest _ this]
    exact hi.dst x hx
  · rw [e1]; exact hi.new x hx
  · rw [e1]; exact hi.nodup
  · rw [e1]; exact hi.given x
  · rw [e1] at hx
    obtain ⟨d1, d2, d3⟩ := hi.blank x hx
    have : ((x, true) : Twin N) ≠ s := fun h => hx (h ▸ hs)
    exact ⟨by rw [g1]; exact d1, by rw [g2]; exact d2, by rw [ho.rest _ this]; exact d3⟩
  · rw [e1]
    rcases Multiset.mem_add.1 ht with ht | ht
    · rcases ho.pkts with ⟨rfl, -⟩ | ⟨e', rfl, -⟩ | ⟨rfl, -⟩
      · simp at ht
      · have ht' : t = s ∧ e = e' := by simpa using ht
        rw [ht'.1]
        exact ⟨hsk.2, hs⟩
      · simp at ht
    · exact hi.target t e (Multiset.mem_cons_of_mem ht)

end Cru.SplitAcc
