import Verif.Proofs.Gather

/-! # Handling a packet, and the invariant -/

namespace Cru.Gather

open Net
open Free (Packet newPacket nack scatter finish1 remaining Core Fresh Scattered Effect Buffers Inv bagOf)

variable {n : Nat} {N V L : Type} [DecidableEq N] {g : Gr N V L} {lane : N → Fin n} {s : Free.Job n N V L}

theorem view_nack (s : Free.Job n N V L) : view g lane (nack s) = nack (view g lane s) := rfl

/-- A state after some edges of a node that isn't recorded have been consumed, seen as one of a graph being freed. -/
structure Eaten (g : Gr N V L) (lane : N → Fin n) (s : Free.Job n N V L) (m : N) (sends : List (Packet N)) (gone rest : List (L × N))
    (t : Free.Job n N V L) : Prop where
  base : Base g lane t
  scattered : Scattered g lane (view g lane s) m sends gone rest (view g lane t)
  out : t.out = Function.update s.out m rest
  deletions : t.deletions = s.deletions
  buffer : t.buffer = s.buffer
  err : rest ≠ [] → t.err (lane m) = true

theorem eaten (hd : g.nodes.Nodup) (h : Base g lane s) {m : N} (hm : m ∉ s.deletions (lane m)) (hin : m ∈ g.nodes)
    {a : Free.Job n N V L × List (Packet N) × Bool} (ha : Sprayed (s.out m) s a)
    (hq : a.2.1 = [] ∨ ∃ i, s.err i = false ∧ a.1.err i = true) :
    ∃ gone, Eaten g lane s m (a.2.1 ++ (scatter (lane m) m (a.1.out m) a.1).2.1) gone (scatter (lane m) m (a.1.out m) a.1).2.2
      { (scatter (lane m) m (a.1.out m) a.1).1 with
        out := Function.update (scatter (lane m) m (a.1.out m) a.1).1.out m (scatter (lane m) m (a.1.out m) a.1).2.2 } := by
  obtain ⟨⟨a0, e0, r0, k0, h0⟩, ae, aends, -, asp, an, ans⟩ := ha
  obtain ⟨a, sends0, ok⟩ := a
  dsimp only at *
  have hao : a.out = s.out := by rw [h0]
  obtain ⟨a1, e1, r1, k1, gone, h1, h2, h3, h4⟩ := Free.scatter_spec (lane m) m (a.out m) a
  obtain ⟨m1, m2, m3, m4⟩ := Free.scatter_more (lane m) m (a.out m) a
  have m5 := scatter_err (lane m) m (a.out m) a
  refine ⟨gone, ?_⟩
  generalize scatter (lane m) m (a.out m) a = w at *
  obtain ⟨t, sends, rest⟩ := w
  dsimp only at *
  rw [hao] at h2
  have hto : t.out = s.out := by rw [h1]; exact hao
  have htd : t.deletions = s.deletions := by rw [h1, h0]
  have htb : t.buffer = s.buffer := by rw [h1, h0]
  have hte : ∀ j, s.err j = true → t.err j = true := fun j hj => by rw [h1]; exact h4 j (ae j hj)
  have hb : Base g lane { t with out := Function.update t.out m rest } := by
    have := (h.consume hd hin h2).frame (e := t.err) hte t.asked t.reserve t.name t.heap (b := t.buffer) (fun j hj => hte j (h.buf j (by rw [← htb]; exact hj)))
    have he : ({ t with out := Function.update t.out m rest } : Free.Job n N V L) =
        { ({ s with out := Function.update s.out m rest, labels := (gone.map Prod.fst).reverse ++ s.labels } : Free.Job n N V L) with
          asked := t.asked, err := t.err, reserve := t.reserve, name := t.name, buffer := t.buffer, heap := t.heap } := by
      rw [h1, h0]
    rw [he]; exact this
  have heo := eff_out (lane := lane) hm (t := { t with out := Function.update t.out m rest }) htd (by rw [← hto])
  exact
    { base := hb
      out := by show Function.update t.out m rest = _; rw [hto]
      deletions := htd
      buffer := htb
      err := m5
      scattered :=
        { core := hb.core
          edges := by show eff lane s m = _; rw [eff_fresh hm]; exact h2
          out := heo
          sent := fun c hc hne => by
            rw [List.map_append]
            refine List.mem_append_right _ ?_
            rw [h3]; exact List.mem_map.2 ⟨c, List.mem_filter.2 ⟨hc, by simpa using hne⟩, rfl⟩
          tgt := fun q hq => by
            show ∃ c ∈ eff lane s m, _
            rw [eff_fresh hm]
            rcases List.mem_append.1 hq with hq | hq
            · exact aends q hq
            · have : q.1 ∈ sends.map Prod.fst := List.mem_map.2 ⟨q, hq, rfl⟩
              rw [h3] at this
              obtain ⟨c, hc', e⟩ := List.mem_map.1 this
              exact ⟨c, by rw [h2]; exact List.mem_append_left _ (List.mem_of_mem_filter hc'), e⟩
          err := hte
          quiet := fun hg => by
            rw [hg] at h3
            have : sends = [] := by simpa using h3
            rw [this, List.append_nil]
            refine hq.imp id fun ⟨i, x1, x2⟩ => ⟨i, x1, ?_⟩
            show t.err i = true
            rw [h1]; exact h4 i x2
          buffer := htb
          fresh := fun x => by
            rw [fresh_iff, fresh_iff]
            show x ∉ t.deletions _ ↔ _
            rw [htd]
          short := m1
          spent := fun x1 x2 e => by
            obtain ⟨e1, e2⟩ := List.append_eq_nil_iff.1 e
            by_cases hz : a.reserve = 0
            · exact asp x1 hz e1
            · exact m2 hz x2 e2
          name := by show s.name ≤ t.name; omega
          names := fun q hq => by
            show s.name ≤ _ ∧ _ < t.name
            rcases List.mem_append.1 hq with hq | hq
            · have := ans q hq; omega
            · have := m4 q hq; omega } }

theorem consumes (hd : g.nodes.Nodup) (h : Base g lane s) (hb : Buffers g lane (view g lane s)) (p : Packet N) (hin : p.1 ∈ g.nodes)
    (hf : p.1 ∉ s.deletions (lane p.1)) {a : Free.Job n N V L × List (Packet N) × Bool} (ha : Sprayed (s.out p.1) s a)
    (hq : a.2.1 = [] ∨ ∃ i, s.err i = false ∧ a.1.err i = true) :
    let w := consume (lane p.1) p a.2.1 a.1
    Effect g lane (view g lane s) p (view g lane w.1, w.2) ∧ Base g lane w.1 := by
  intro w
  obtain ⟨gone, hs⟩ := eaten hd h hf hin ha hq
  have hw0 : w = consume (lane p.1) p a.2.1 a.1 := rfl
  clear_value w
  unfold consume at hw0
  dsimp only at hw0
  generalize ht : ({ (scatter (lane p.1) p.1 (a.1.out p.1) a.1).1 with
        out := Function.update (scatter (lane p.1) p.1 (a.1.out p.1) a.1).1.out p.1 (scatter (lane p.1) p.1 (a.1.out p.1) a.1).2.2 } : Free.Job n N V L) = t at *
  generalize a.2.1 ++ (scatter (lane p.1) p.1 (a.1.out p.1) a.1).2.1 = sends at *
  generalize (scatter (lane p.1) p.1 (a.1.out p.1) a.1).2.2 = rest at *
  have hf' : Fresh lane (view g lane s) p.1 := (fresh_iff s _).2 hf
  have hft : p.1 ∉ t.deletions (lane p.1) := by rw [hs.deletions]; exact hf
  have hto : t.out p.1 = rest := by rw [hs.out, Function.update_self]
  -- once a node is recorded
  have hfresh : ∀ {u : Free.Job n N V L}, u.deletions = Function.update s.deletions (lane p.1) (p.1 :: s.deletions (lane p.1)) →
      ∀ x, Fresh lane (view g lane u) x ↔ Fresh lane (view g lane s) x ∧ x ≠ p.1 := fun {u} hu x => by
    rw [fresh_iff, fresh_iff, hu, mem_push]
    constructor
    · intro h; exact ⟨fun h' => h (.inl h'), fun e => h (.inr ⟨e, by rw [e]⟩)⟩
    · rintro ⟨h1, h2⟩ (h | ⟨h, -⟩)
      · exact h1 h
      · exact h2 h
  by_cases hr : rest = []
  · have hw : w = (keep (lane p.1) p t, sends, false) := hw0.trans (if_pos hr)
    rw [hw]
    subst hr
    dsimp only
    unfold keep
    by_cases hc : t.buffer (lane p.1) ≠ some p ∧ (t.buffer (lane p.1)).map Prod.fst = some p.1
    · rw [if_pos hc]
      obtain ⟨b, h1, h2⟩ := Option.map_eq_some_iff.1 hc.2
      exact ⟨.twin hf' hs.scattered (b := b) (by show s.buffer _ = _; rw [← hs.buffer]; exact h1) (fun e => hc.1 (by rw [h1, e])) h2, hs.base.nack⟩
    · rw [if_neg hc]
      obtain ⟨c1, c2, c3, c4, ce, c5, c6⟩ := hs.base.record hft hin
      have heff : eff lane (record (lane p.1) p.1 t) = eff lane t := by
        rw [eff_push c6 c2]
        have : eff lane t p.1 = [] := by rw [eff_fresh hft, hto]
        rw [← this, Function.update_eq_self]
      rw [hs.deletions] at c6
      unfold finish1
      rw [c3]
      by_cases hbp : t.buffer (lane p.1) = some p
      · rw [if_pos hbp]
        have hbn : Base g lane { record (lane p.1) p.1 t with buffer := Function.update t.buffer (lane p.1) none } :=
          c1.frame (fun _ h => h) _ _ _ _ fun j hj => by
            by_cases e : j = lane p.1
            · subst e; exact absurd (Function.update_self _ _ _) hj
            · rw [Function.update_of_ne e] at hj
              exact c1.buf j (by rw [c3]; exact hj)
        exact ⟨.unbuffer hf' hs.scattered (by show s.buffer _ = _; rw [← hs.buffer]; exact hbp) hbn.core heff rfl c4 ce c5 (hfresh c6), hbn⟩
      · rw [if_neg hbp]
        refine ⟨.done hf' hs.scattered (fun b hb' e => ?_) (.inl ⟨rfl, heff⟩) c1.nack.core c3 (Free.nack_ne _) ce c5 (hfresh c6), c1.nack⟩
        exact hc ⟨hbp, by rw [hs.buffer, show s.buffer _ = _ from hb']; exact congrArg some e⟩
  · have hw : w = short (lane p.1) p rest sends t := hw0.trans (if_neg hr)
    rw [hw]
    unfold short
    rcases hbu : t.buffer (lane p.1) with _ | b
    · refine ⟨.defer hf' hs.scattered (by show s.buffer _ = _; rw [← hs.buffer]; exact hbu), Base.nack ?_⟩
      refine hs.base.frame (e := t.err) (fun _ h => h) t.asked t.reserve t.name t.heap fun j hj => ?_
      by_cases e : j = lane p.1
      · subst e; exact hs.err hr
      · rw [Function.update_of_ne e] at hj; exact hs.base.buf j hj
    · have hbs : s.buffer (lane p.1) = some b := by rw [← hs.buffer]; exact hbu
      obtain ⟨b1, b2, b3⟩ := hb _ _ hbs
      have hfb : b.1 ∉ t.deletions (lane b.1) := by rw [hs.deletions]; exact (fresh_iff s _).1 b3
      dsimp only
      by_cases hne : b.1 = p.1
      · rw [if_neg (by simpa using hne)]
        by_cases hbp : b = p
        · rw [if_pos hbp]; subst hbp
          exact ⟨.spin hf' hs.scattered hr hbs, hs.base⟩
        · rw [if_neg hbp]
          exact ⟨.drop hf' hs.scattered hbs hbp hne, hs.base.nack⟩
      · rw [if_pos hne]
        have htr := hs.base.transplant hd hin b2 hne
        rw [hto] at htr
        generalize hu : ({ t with out := Function.update (Function.update t.out b.1 (rest ++ t.out b.1)) p.1 [] } : Free.Job n N V L) = u at *
        have hub : u.buffer = t.buffer := by rw [← hu]
        have hud : u.deletions = t.deletions := by rw [← hu]
        have hun : u.name = t.name := by rw [← hu]
        have hue : u.err = t.err := by rw [← hu]
        have huo : u.out p.1 = [] := by rw [← hu]; exact Function.update_self _ _ _
        have huo' : u.out = Function.update (Function.update t.out b.1 (rest ++ t.out b.1)) p.1 [] := by rw [← hu]
        obtain ⟨c1, c2, c3, c4, ce, c5, c6⟩ := htr.record (by rw [hud]; exact hft) hin
        have heff : eff lane (record (lane p.1) p.1 u) =
            Function.update (Function.update (eff lane t) b.1 (rest ++ eff lane t b.1)) p.1 [] := by
          rw [eff_push c6 c2]
          funext y
          by_cases e : y = p.1
          · subst e; simp
          · rw [Function.update_of_ne e, Function.update_of_ne e]
            by_cases e' : y = b.1
            · subst e'
              rw [Function.update_self]
              unfold eff
              rw [hud, if_neg hfb, if_neg hfb, huo', Function.update_of_ne e, Function.update_self]
            · rw [Function.update_of_ne e']
              unfold eff
              rw [hud, huo', Function.update_of_ne e, Function.update_of_ne e']
        rw [hud, hs.deletions] at c6
        unfold keep
        rw [if_neg (by rw [hub, hbu]; simp only [Option.map_some, Option.some.injEq]; tauto)]
        unfold finish1
        rw [c3, hub, hbu, if_neg (by rw [Option.some.injEq]; rintro rfl; exact hne rfl)]
        exact ⟨.done hf' hs.scattered (fun b' hb' => by rw [show s.buffer _ = _ from hb'] at hbs; obtain rfl := Option.some.inj hbs; exact hne)
          (.inr ⟨b, hbs, heff⟩) c1.nack.core (c3.trans hub) (Free.nack_ne _) (fun j hj => ce j (by rw [hue]; exact hj)) (c5.trans hun) (hfresh c6), c1.nack⟩

/-- With packets for all edges, they may stay. -/
theorem sprays (hd : g.nodes.Nodup) (h : Base g lane s) (p : Packet N) (hin : p.1 ∈ g.nodes)
    (hf : p.1 ∉ s.deletions (lane p.1)) {a : Free.Job n N V L × List (Packet N) × Bool} (ha : Sprayed (s.out p.1) s a) (hok : a.2.2 = true)
    (he : s.err (lane p.1) = false) :
    Effect g lane (view g lane s) p (view g lane (keep (lane p.1) p a.1), a.2.1, false) ∧ Base g lane (keep (lane p.1) p a.1) := by
  obtain ⟨⟨a0, e0, r0, k0, h0⟩, ae, aends, all, asp, an, ans⟩ := ha
  obtain ⟨t, sends, ok⟩ := a
  dsimp only at *
  have hto : t.out = s.out := by rw [h0]
  have htd : t.deletions = s.deletions := by rw [h0]
  have htb : t.buffer = s.buffer := by rw [h0]
  have hsb : s.buffer (lane p.1) = none := by
    by_contra hc; rw [h.buf _ hc] at he; cases he
  have hbt : Base g lane t := by
    have := h.frame (e := t.err) ae t.asked t.reserve t.name t.heap (b := t.buffer) (fun j hj => ae j (h.buf j (by rw [← htb]; exact hj)))
    have he : t = { s with asked := t.asked, err := t.err, reserve := t.reserve, name := t.name, buffer := t.buffer, heap := t.heap } := by rw [h0]
    rw [he]; exact this
  have hft : p.1 ∉ t.deletions (lane p.1) := by rw [htd]; exact hf
  have hf' : Fresh lane (view g lane s) p.1 := (fresh_iff s _).2 hf
  have hfv : Fresh lane (view g lane t) p.1 := (fresh_iff t _).2 hft
  obtain ⟨c1, c2, c3, c4, ce, c5, c6⟩ := hbt.record hft hin
  have hcore := hbt.core.consume hd hfv hin (gone := t.out p.1) (rest := []) (by show eff lane t p.1 = _; rw [eff_fresh hft, List.append_nil])
  have het : eff lane t = eff lane s := eff_same hto htd
  generalize hu : ({ view g lane t with out := Function.update (view g lane t).out p.1 []
                                        labels := ((t.out p.1).map Prod.fst).reverse ++ (view g lane t).labels } : Free.Job n N V L) = u at hcore
  have hs : Scattered g lane (view g lane s) p.1 sends (s.out p.1) [] u :=
    { core := hcore
      edges := by show eff lane s p.1 = _; rw [eff_fresh hf, List.append_nil]
      out := by rw [← hu]; show Function.update (eff lane t) p.1 [] = Function.update (eff lane s) p.1 []; rw [het]
      sent := fun c hc _ => all hok c hc
      tgt := fun q hq => by show ∃ c ∈ eff lane s p.1, _; rw [eff_fresh hf]; exact aends q hq
      err := by rw [← hu]; exact ae
      quiet := fun hg => by
        left
        by_contra hne
        obtain ⟨q, hq⟩ := List.exists_mem_of_ne_nil _ hne
        obtain ⟨c, hc, -⟩ := aends q hq
        rw [hg] at hc; cases hc
      buffer := by rw [← hu]; exact htb
      fresh := fun x => by
        rw [← hu, fresh_iff, ← htd]
        exact ⟨fun h => h.1, fun h => ⟨h, fun hm => by cases hm⟩⟩
      short := fun h => absurd rfl h
      spent := by rw [← hu]; exact asp
      name := by rw [← hu]; exact an
      names := by rw [← hu]; exact ans }
  have hub : u.buffer = s.buffer := hs.buffer
  unfold keep
  rw [if_neg (by rw [htb, hsb]; simp)]
  unfold finish1
  rw [c3, htb, hsb, if_neg (by simp)]
  refine ⟨.done hf' hs (fun b hb => ?_) (.inl ⟨rfl, ?_⟩) c1.nack.core ?_ (Free.nack_ne _) (fun j hj => ?_) ?_ (fun x => ?_), c1.nack⟩
  · rw [show s.buffer _ = _ from hb] at hsb; cases hsb
  · rw [hs.out]
    show eff lane (record (lane p.1) p.1 t) = _
    rw [eff_push c6 c2, het]; rfl
  · rw [hub, ← htb]; exact c3
  · rw [← hu] at hj; exact ce j hj
  · rw [← hu]; exact c5
  · rw [fresh_iff, fresh_iff]
    show x ∉ (record (lane p.1) p.1 t).deletions _ ↔ _
    rw [c6, mem_push, htd]
    constructor
    · intro h; exact ⟨fun h' => h (.inl h'), fun e => h (.inr ⟨e, by rw [e]⟩)⟩
    · rintro ⟨h1, h2⟩ (h | ⟨h, -⟩)
      · exact h1 h
      · exact h2 h

theorem recorded_iff {wary : Bool} {s : Job n N V L} (h : Base g lane s.toJob) (m : N) :
    recorded wary (lane m) m s = true ↔ m ∈ s.deletions (lane m) := by
  unfold recorded
  rw [Bool.or_eq_true, Bool.and_eq_true, decide_eq_true_iff, decide_eq_true_iff]
  constructor
  · rintro (h1 | ⟨-, h1⟩)
    · exact h.seen _ _ h1
    · exact h1
  · intro h1
    by_cases h2 : m ∈ s.seen (lane m)
    · exact .inl h2
    · exact .inr ⟨by rw [h.err _ _ h1 h2]; rfl, h1⟩

theorem handles (hd : g.nodes.Nodup) {wary : Bool} {s : Job n N V L} (h : Base g lane s.toJob) (hb : Buffers g lane (view g lane s.toJob)) (p : Packet N)
    (hin : p.1 ∈ g.nodes) :
    let w := handle wary (lane p.1) s p
    Effect g lane (view g lane s.toJob) p (view g lane w.1.toJob, w.2) ∧ Base g lane w.1.toJob := by
  intro w
  have hw : w = handle wary (lane p.1) s p := rfl
  clear_value w
  unfold handle at hw
  by_cases hrec : recorded wary (lane p.1) p.1 s = true
  · rw [if_pos hrec] at hw
    have hm := (recorded_iff h p.1).1 hrec
    have hf : ¬ Fresh lane (view g lane s.toJob) p.1 := fun hf => (fresh_iff _ _).1 hf hm
    have hbp : s.buffer (lane p.1) ≠ some p := fun e => hf (hb _ _ e).2.2
    unfold finish1 at hw
    rw [if_neg hbp] at hw
    rw [hw]
    exact ⟨.old hf hbp, h.nack⟩
  · rw [if_neg hrec] at hw
    have hm : p.1 ∉ s.deletions (lane p.1) := fun hm => hrec ((recorded_iff h p.1).2 hm)
    dsimp only at hw
    by_cases hstop : (s.err (lane p.1) || s.killed (lane p.1)) = true
    · rw [if_pos hstop] at hw
      dsimp only at hw
      rw [if_neg (by simp)] at hw
      rw [hw]
      exact consumes hd h hb p hin hm (Sprayed.skip _ _) (.inl rfl)
    · rw [if_neg hstop] at hw
      have he : s.err (lane p.1) = false := by
        rw [Bool.not_eq_true, Bool.or_eq_false_iff] at hstop; exact hstop.1
      obtain ⟨hsp, hfail⟩ := spray_spec (lane p.1) (s.out p.1) s.toJob
      by_cases hok : (spray (lane p.1) (s.out p.1) s.toJob).2.2 = true
      · rw [if_pos hok] at hw
        rw [hw]
        exact sprays hd h p hin hm hsp hok he
      · rw [if_neg hok] at hw
        rw [hw]
        exact consumes hd h hb p hin hm hsp (.inr ⟨lane p.1, he, hfail (by simpa using hok)⟩)

/-! ## All packets -/

section
variable {wary : Bool} {hash : N → Nat} {hn : 0 < n}

theorem Base.start (h : g.WF) (lane : N → Fin n) (heap : Nat → Bool) (reserve : Nat) : Base g lane (start g heap reserve).toJob where
  lanes i m hm := by cases hm
  nodup i := List.nodup_nil
  nodes i m hm := by cases hm
  seen i m hm := by cases hm
  err i m hm := by cases hm
  buf i hi := absurd rfl hi
  labels := by show (([] : List L) : Multiset L) + _ = _; rw [Multiset.coe_nil, zero_add]; rfl
  edges m hm e he := (h.reach _).2 (((h.reach m).1 hm).tail (List.mem_map.2 ⟨e, he, rfl⟩))
  freed := ⟨rfl, rfl, rfl⟩

/-- The invariant. -/
def Good (g : Gr N V L) (lane : N → Fin n) (x : Job n N V L × Multiset (Packet N)) : Prop :=
  Inv g lane (view g lane x.1.toJob, x.2) ∧ Base g lane x.1.toJob

theorem Good.start (h : g.WF) (lane : N → Fin n) (heap : Nat → Bool) (reserve : Nat) : Good g lane (start g heap reserve, {Free.first g}) := by
  have hb := Base.start h lane heap reserve
  refine ⟨⟨hb.core, fun i b hb => (by cases hb), fun p hp => ?_, fun p hp => ?_, fun m hm _ => ⟨Free.first g, Multiset.mem_singleton_self _, ?_⟩⟩, hb⟩
  · rw [Multiset.mem_singleton.1 hp]; exact (h.reach _).2 .refl
  · rw [Multiset.mem_singleton.1 hp]; exact Nat.one_pos
  · have : eff lane (Gather.start (n := n) g heap reserve).toJob = g.out := by funext m; unfold eff; exact if_neg (fun h => by cases h)
    show Reaches (Free.ends (eff lane (Gather.start (n := n) g heap reserve).toJob)) g.base m
    rw [this]
    exact (h.reach m).1 hm

theorem Good.env {x : Job n N V L × Multiset (Packet N)} (h : Good g lane x) (e : Event n) :
    Good g lane ((task wary hash hn).env e x.1, x.2) := by
  obtain ⟨⟨h1, h2, h3, h4, h5⟩, h6⟩ := h
  have key : ∀ (hp : Nat → Bool) (r : Nat) (er : Fin n → Bool), (∀ j, x.1.err j = true → er j = true) →
      Good g lane (⟨{ x.1.toJob with heap := hp, reserve := r, err := er }, x.1.killed⟩, x.2) := by
    intro hp r er her
    have hb : Base g lane { x.1.toJob with heap := hp, reserve := r, err := er } :=
      h6.frame (e := er) her x.1.asked r x.1.name hp (b := x.1.buffer) fun j hj => her j (h6.buf j hj)
    exact ⟨⟨hb.core, h2, h3, h4, h5⟩, hb⟩
  cases e with
  | heap hp => exact key hp _ _ fun _ h => h
  | reserve r => exact key _ r _ fun _ h => h
  | raise i =>
    refine key _ _ _ fun j hj => ?_
    by_cases e : j = i
    · subst e; simp
    · rw [Function.update_of_ne e]; exact hj
  | kill i => exact ⟨⟨h1, h2, h3, h4, h5⟩, h6⟩

theorem Good.handle (hd : g.nodes.Nodup) {s : Job n N V L} {p : Packet N} {rest : Multiset (Packet N)} (h : Good g lane (s, p ::ₘ rest)) :
    let w := Gather.handle wary (lane p.1) s p
    Good g lane (w.1, bagOf p w.2.1 w.2.2 rest) := by
  intro w
  obtain ⟨h1, h2⟩ := handles hd h.2 (wary := wary) h.1.buffers p (h.1.flight p (Multiset.mem_cons_self _ _))
  exact ⟨Effect.inv h.1 h1, h2⟩

theorem good_bag (h : g.WF) {heap : Nat → Bool} {reserve : Nat} {x : Job n N V L × Multiset (Packet N)}
    (hx : Bag.Reach (task wary hash hn) (Free.first g) (start g heap reserve) x) : Good g (fun m => Build.lane hn (hash m)) x := by
  induction hx with
  | init => exact Good.start h _ heap reserve
  | step hr hs ih =>
    cases hs with
    | env e s m => exact ih.env e
    | handle s p rest => exact ih.handle h.nodup

end

end Cru.Gather
