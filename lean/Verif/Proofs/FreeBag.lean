import Verif.Proofs.Free

/-! # What handling a packet does, and the invariant of all packets -/

namespace Cru.Free

open Net

variable {n : Nat} {N V L : Type} [DecidableEq N]

theorem scatter_more (i : Fin n) (m : N) : ∀ (es : List (L × N)) (s : Job n N V L),
    ((scatter i m es s).2.2 ≠ [] → (scatter i m es s).1.reserve = 0) ∧
    (s.reserve ≠ 0 → (scatter i m es s).1.reserve = 0 → (scatter i m es s).2.1 ≠ []) ∧
    s.name ≤ (scatter i m es s).1.name ∧
    (∀ q ∈ (scatter i m es s).2.1, s.name ≤ q.2 ∧ q.2 < (scatter i m es s).1.name) := by
  intro es
  induction es with
  | nil => intro s; exact ⟨fun h => absurd rfl h, fun h1 h2 => absurd h2 h1, Nat.le_refl _, fun q hq => by cases hq⟩
  | cons c es ih =>
    intro s
    unfold scatter
    by_cases hc : c.2 = m
    · rw [if_pos hc]
      exact ih { s with labels := c.1 :: s.labels }
    · rw [if_neg hc]
      by_cases hp : (newPacket i s).2 = true
      · rw [if_pos hp]
        obtain ⟨h1, -, h3, h4⟩ := ih { (newPacket i s).1 with name := s.name + 1, labels := c.1 :: s.labels }
        dsimp only at h3 h4 ⊢
        refine ⟨h1, fun _ _ => List.cons_ne_nil _ _, by omega, fun q hq => ?_⟩
        rcases List.mem_cons.1 hq with rfl | hq
        · exact ⟨Nat.le_refl _, by omega⟩
        · have := h4 q hq; omega
      · rw [if_neg hp]
        have hr : s.reserve = 0 := by
          unfold newPacket at hp
          by_contra hne
          simp only [if_neg hne] at hp
          split at hp <;> exact hp rfl
        have hr' : (newPacket i s).1.reserve = 0 := by
          unfold newPacket
          split
          · exact hr
          · simp [hr]
        have hnm : (newPacket i s).1.name = s.name := by
          unfold newPacket
          split
          · rfl
          · simp
        exact ⟨fun _ => hr', fun h => absurd hr h, Nat.le_of_eq hnm.symm, fun q hq => by cases hq⟩

variable {g : Gr N V L} {lane : N → Fin n} {s : Job n N V L}

/-- A state after some of the edges from a node have been consumed. -/
structure Scattered (g : Gr N V L) (lane : N → Fin n) (s : Job n N V L) (m : N) (sends : List (Packet N)) (gone rest : List (L × N))
    (t : Job n N V L) : Prop where
  core : Core g lane t
  edges : s.out m = gone ++ rest
  out : t.out = Function.update s.out m rest
  sent : ∀ c ∈ gone, c.2 ≠ m → c.2 ∈ sends.map Prod.fst
  tgt : ∀ q ∈ sends, ∃ c ∈ s.out m, c.2 = q.1
  err : ∀ j, s.err j = true → t.err j = true
  quiet : gone = [] → sends = [] ∨ ∃ i, s.err i = false ∧ t.err i = true
  buffer : t.buffer = s.buffer
  fresh : ∀ x, Fresh lane t x ↔ Fresh lane s x
  short : rest ≠ [] → t.reserve = 0
  spent : s.reserve ≠ 0 → t.reserve = 0 → sends ≠ []
  name : s.name ≤ t.name
  names : ∀ q ∈ sends, s.name ≤ q.2 ∧ q.2 < t.name

theorem Core.scatter (hd : g.nodes.Nodup) (h : Core g lane s) {m : N} (hm : Fresh lane s m) (hin : m ∈ g.nodes) (i : Fin n) :
    ∃ gone, Scattered g lane s m (scatter i m (s.out m) s).2.1 gone (scatter i m (s.out m) s).2.2
      { (scatter i m (s.out m) s).1 with out := Function.update (scatter i m (s.out m) s).1.out m (scatter i m (s.out m) s).2.2 } := by
  obtain ⟨a, e, r, k, gone, h1, h2, h3, h4⟩ := scatter_spec i m (s.out m) s
  obtain ⟨m1, m2, m3, m4⟩ := scatter_more i m (s.out m) s
  refine ⟨gone, ?_⟩
  generalize Free.scatter i m (s.out m) s = w at *
  obtain ⟨t, sends, rest⟩ := w
  dsimp only at *
  subst h1
  exact
    { core := (h.consume hd hm hin h2).frame (e := e) h4 a r k s.buffer s.heap
      edges := h2, out := rfl
      sent := fun c hc hne => by rw [h3]; exact List.mem_map.2 ⟨c, List.mem_filter.2 ⟨hc, by simpa using hne⟩, rfl⟩
      tgt := fun q hq => by
        have : q.1 ∈ sends.map Prod.fst := List.mem_map.2 ⟨q, hq, rfl⟩
        rw [h3] at this
        obtain ⟨c, hc', e⟩ := List.mem_map.1 this
        exact ⟨c, by rw [h2]; exact List.mem_append_left _ (List.mem_of_mem_filter hc'), e⟩
      err := h4
      quiet := fun hg => .inl (by rw [hg] at h3; simpa using h3)
      buffer := rfl, fresh := fun _ => Iff.rfl, short := m1, spent := m2, name := m3, names := m4 }

/-- The ways in which handling a packet can turn out, with the next state, the packets sent, and whether the packet is deferred. -/
inductive Effect (g : Gr N V L) (lane : N → Fin n) (s : Job n N V L) (p : Packet N) : Job n N V L × List (Packet N) × Bool → Prop
  /-- The node has been recorded already. -/
  | old : ¬ Fresh lane s p.1 → s.buffer (lane p.1) ≠ some p → Effect g lane s p (nack s, [], false)
  /-- All edges are consumed, but the node is in the buffer. -/
  | twin {sends gone t b} : Fresh lane s p.1 → Scattered g lane s p.1 sends gone [] t → s.buffer (lane p.1) = some b → b ≠ p → b.1 = p.1 →
      Effect g lane s p (nack t, sends, false)
  /-- All edges of the node in the buffer are consumed. -/
  | unbuffer {sends gone t s'} : Fresh lane s p.1 → Scattered g lane s p.1 sends gone [] t → s.buffer (lane p.1) = some p →
      Core g lane s' → s'.out = t.out → s'.buffer = Function.update t.buffer (lane p.1) none → s'.reserve = t.reserve →
      (∀ j, t.err j = true → s'.err j = true) → s'.name = t.name → (∀ x, Fresh lane s' x ↔ Fresh lane s x ∧ x ≠ p.1) → Effect g lane s p (s', sends, false)
  /-- All edges are consumed or passed on to the node in the buffer. -/
  | done {sends gone rest t s'} : Fresh lane s p.1 → Scattered g lane s p.1 sends gone rest t →
      (∀ b, s.buffer (lane p.1) = some b → b.1 ≠ p.1) →
      (rest = [] ∧ s'.out = t.out ∨
        ∃ b, s.buffer (lane p.1) = some b ∧
          s'.out = Function.update (Function.update t.out b.1 (rest ++ t.out b.1)) p.1 []) →
      Core g lane s' → s'.buffer = t.buffer → s'.reserve ≠ 0 →
      (∀ j, t.err j = true → s'.err j = true) → s'.name = t.name → (∀ x, Fresh lane s' x ↔ Fresh lane s x ∧ x ≠ p.1) → Effect g lane s p (s', sends, false)
  /-- The node goes into the buffer. -/
  | defer {sends gone rest t} : Fresh lane s p.1 → Scattered g lane s p.1 sends gone rest t → s.buffer (lane p.1) = none →
      Effect g lane s p (nack { t with buffer := Function.update t.buffer (lane p.1) (some p) }, sends, true)
  /-- The node stays in the buffer. -/
  | spin {sends gone rest t} : Fresh lane s p.1 → Scattered g lane s p.1 sends gone rest t → rest ≠ [] → s.buffer (lane p.1) = some p →
      Effect g lane s p (t, sends, true)
  /-- The node is in the buffer anyway. -/
  | drop {sends gone rest t b} : Fresh lane s p.1 → Scattered g lane s p.1 sends gone rest t → s.buffer (lane p.1) = some b → b ≠ p →
      b.1 = p.1 → Effect g lane s p (nack t, sends, false)

theorem nack_ne (s : Job n N V L) : (nack s).reserve ≠ 0 := by
  show (if s.reserve < Pack.limit then s.reserve + 1 else s.reserve) ≠ 0
  split
  · omega
  · rename_i h
    have : Pack.limit = 256 := rfl
    omega

theorem Core.nack (h : Core g lane s) : Core g lane (nack s) := h.frame (e := s.err) (fun _ h => h) s.asked _ s.name s.buffer s.heap

/-- What the buffers contain. -/
def Buffers (g : Gr N V L) (lane : N → Fin n) (s : Job n N V L) : Prop :=
  ∀ i b, s.buffer i = some b → lane b.1 = i ∧ b.1 ∈ g.nodes ∧ Fresh lane s b.1

theorem Core.handle (hd : g.nodes.Nodup) (h : Core g lane s) (hb : Buffers g lane s) (p : Packet N) (hin : p.1 ∈ g.nodes) :
    Effect g lane s p (handle g.vertex (lane p.1) s p) := by
  unfold Free.handle
  rcases hrec : Free.recorded (lane p.1) p.1 s with _ | _
  · have hf := (h.recorded p.1).1 hrec
    rw [if_neg (by simp), h.touch hf]
    obtain ⟨gone, hs⟩ := h.scatter hd hf hin (lane p.1)
    dsimp only
    generalize Free.scatter (lane p.1) p.1 (s.out p.1) s = w at *
    obtain ⟨t0, sends, rest⟩ := w
    dsimp only at *
    generalize ht : ({ t0 with out := Function.update t0.out p.1 rest } : Job n N V L) = t at *
    have hft := (hs.fresh p.1).2 hf
    have hto : t.out p.1 = rest := by rw [hs.out, Function.update_self]
    by_cases hr : rest = []
    · rw [if_pos hr]
      subst hr
      unfold dispose
      by_cases hc : t.buffer (lane p.1) ≠ some p ∧ (t.buffer (lane p.1)).map Prod.fst = some p.1
      · rw [if_pos hc]
        obtain ⟨b, h1, h2⟩ := Option.map_eq_some_iff.1 hc.2
        refine .twin hf hs (b := b) (by rw [← hs.buffer]; exact h1) (fun e => hc.1 (by rw [h1, e])) h2
      · rw [if_neg hc]
        obtain ⟨c1, c2, c3, c4, ce, c5, c6⟩ := hs.core.record hft hin hto
        unfold finish1
        rw [c3]
        by_cases hbp : t.buffer (lane p.1) = some p
        · rw [if_pos hbp]
          exact .unbuffer hf hs (by rw [← hs.buffer]; exact hbp) (c1.frame (fun _ h => h) _ _ _ _ _) c2 rfl c4 ce c5
            (fun x => (c6 x).trans (by rw [hs.fresh]))
        · rw [if_neg hbp]
          refine .done hf hs (fun b hb' e => ?_) (.inl ⟨rfl, c2⟩) c1.nack c3 (nack_ne _) ce c5 (fun x => (c6 x).trans (by rw [hs.fresh]))
          exact hc ⟨hbp, by rw [hs.buffer, hb']; exact congrArg some e⟩
    · rw [if_neg hr]
      unfold short
      rcases hbu : t.buffer (lane p.1) with _ | b
      · exact .defer hf hs (by rw [← hs.buffer]; exact hbu)
      · have hbs : s.buffer (lane p.1) = some b := by rw [← hs.buffer]; exact hbu
        obtain ⟨b1, b2, b3⟩ := hb _ _ hbs
        have hfb : Fresh lane t b.1 := (hs.fresh _).2 b3
        dsimp only
        by_cases hne : b.1 = p.1
        · rw [if_neg (by simpa using hne)]
          by_cases hbp : b = p
          · rw [if_pos hbp]; subst hbp
            exact .spin hf hs hr hbs
          · rw [if_neg hbp]
            exact .drop hf hs hbs hbp hne
        · rw [if_pos hne, hs.core.touch hfb]
          have htr := hs.core.transplant hd hft hfb hin b2 hne
          rw [hto] at htr
          generalize hu : ({ t with out := Function.update (Function.update t.out b.1 (rest ++ t.out b.1)) p.1 [] } : Job n N V L) = u at *
          have hub : u.buffer = t.buffer := by rw [← hu]
          have huf : ∀ x, Fresh lane u x ↔ Fresh lane t x := fun x => by rw [← hu]; exact Iff.rfl
          have hun : u.name = t.name := by rw [← hu]
          have hue : u.err = t.err := by rw [← hu]
          have huo : u.out p.1 = [] := by rw [← hu]; exact Function.update_self _ _ _
          have huo' : u.out = Function.update (Function.update t.out b.1 (rest ++ t.out b.1)) p.1 [] := by rw [← hu]
          obtain ⟨c1, c2, c3, c4, ce, c5, c6⟩ := htr.record ((huf _).2 hft) hin huo
          unfold dispose
          rw [if_neg (by rw [hub, hbu]; simp only [Option.map_some, Option.some.injEq]; tauto)]
          unfold finish1
          rw [c3, hub, hbu, if_neg (by rw [Option.some.injEq]; rintro rfl; exact hne rfl)]
          exact .done hf hs (fun b' hb' => by rw [hbs] at hb'; obtain rfl := Option.some.inj hb'; exact hne) (.inr ⟨b, hbs, c2.trans huo'⟩) c1.nack (c3.trans hub) (nack_ne _) (fun j hj => ce j (by rw [hue]; exact hj)) (c5.trans hun)
            (fun x => (c6 x).trans (by rw [huf, hs.fresh]))
  · have hf : ¬ Fresh lane s p.1 := fun hf => by rw [(h.recorded p.1).2 hf] at hrec; cases hrec
    have hbp : s.buffer (lane p.1) ≠ some p := fun e => hf (hb _ _ e).2.2
    rw [if_pos rfl]
    unfold finish1
    rw [if_neg hbp]
    exact .old hf hbp

/-! ## All packets -/

/-- Following the edges there are at the moment. -/
def ends (out : N → List (L × N)) (m : N) : List N := (out m).map Prod.snd

structure Inv (g : Gr N V L) (lane : N → Fin n) (x : Job n N V L × Multiset (Packet N)) : Prop where
  core : Core g lane x.1
  buf : ∀ i b, x.1.buffer i = some b → lane b.1 = i ∧ b ∈ x.2 ∧ Fresh lane x.1 b.1
  flight : ∀ p ∈ x.2, p.1 ∈ g.nodes
  names : ∀ p ∈ x.2, p.2 < x.1.name
  cover : ∀ m ∈ g.nodes, Fresh lane x.1 m → ∃ p ∈ x.2, Reaches (ends x.1.out) p.1 m

theorem Inv.buffers {x : Job n N V L × Multiset (Packet N)} (h : Inv g lane x) : Buffers g lane x.1 := fun i b hb =>
  ⟨(h.buf i b hb).1, h.flight b (h.buf i b hb).2.1, (h.buf i b hb).2.2⟩

omit [DecidableEq N] in
/-- Nodes that can be reached from packets before a step can still be reached. -/
theorem cover_step {out out' : N → List (L × N)} {B B' : N → Prop} {m : N} (h1 : ∀ x, B x → B' x ∨ x = m)
    (h2 : ∀ x y, y ∈ ends out x → y ∈ ends out' x ∨ B' y ∨ y = x ∨ ∃ b, B' b ∧ y ∈ ends out' b)
    (h3 : ∀ y ∈ ends out' m, B' m) {x₀ x : N} (hx₀ : B x₀) (hr : Reaches (ends out) x₀ x) :
    (∃ q, B' q ∧ Reaches (ends out') q x) ∨ x = m := by
  induction hr with
  | refl =>
    rcases h1 x₀ hx₀ with h | h
    · exact .inl ⟨x₀, h, .refl⟩
    · exact .inr h
  | tail hr e ih =>
    rename_i y z
    rcases h2 y z e with h | h | h | ⟨b, h, h'⟩
    · rcases ih with ⟨q, hq, hq'⟩ | rfl
      · exact .inl ⟨q, hq, hq'.tail h⟩
      · exact .inl ⟨y, h3 z h, .single h⟩
    · exact .inl ⟨z, h, .refl⟩
    · rw [h]; exact ih
    · exact .inl ⟨b, h, .single h'⟩

/-- Edges that a step consumes. -/
theorem Scattered.edge {m : N} {sends : List (Packet N)} {gone rest : List (L × N)} {t : Job n N V L}
    (h : Scattered g lane s m sends gone rest t) (x y : N) (hy : y ∈ ends s.out x) :
    y ∈ ends t.out x ∨ y ∈ sends.map Prod.fst ∨ y = x := by
  by_cases hx : x = m
  · subst hx
    unfold ends at hy
    rw [h.edges, List.map_append, List.mem_append] at hy
    rcases hy with hy | hy
    · by_cases hyx : y = x
      · exact .inr (.inr hyx)
      · refine .inr (.inl ?_)
        obtain ⟨c, hc, rfl⟩ := List.mem_map.1 hy
        exact h.sent c hc hyx
    · refine .inl ?_
      unfold ends
      rw [h.out, Function.update_self]; exact hy
  · refine .inl ?_
    unfold ends
    rw [h.out, Function.update_of_ne hx]; exact hy

theorem Scattered.flight {m : N} {sends : List (Packet N)} {gone rest : List (L × N)} {t : Job n N V L}
    (hc : Core g lane s) (hm : m ∈ g.nodes) (h : Scattered g lane s m sends gone rest t) : ∀ q ∈ sends, q.1 ∈ g.nodes := by
  intro q hq
  obtain ⟨c, hc', e⟩ := h.tgt q hq
  rw [← e]
  exact hc.edges m hm c hc'

variable {hash : N → Nat} {hn : 0 < n}

def bagOf (p : Packet N) (sends : List (Packet N)) (again : Bool) (rest : Multiset (Packet N)) : Multiset (Packet N) :=
  (sends : Multiset (Packet N)) + (if again then {p} else 0) + rest

theorem mem_bagOf {p : Packet N} {sends : List (Packet N)} {again : Bool} {rest : Multiset (Packet N)} {q : Packet N} :
    q ∈ bagOf p sends again rest ↔ q ∈ sends ∨ (again = true ∧ q = p) ∨ q ∈ rest := by
  unfold bagOf
  cases again <;> simp [or_assoc]

/-- The invariant after a step. -/
theorem Effect.inv {p : Packet N} {rest : Multiset (Packet N)} (h : Inv g lane (s, p ::ₘ rest))
    {w : Job n N V L × List (Packet N) × Bool} (he : Effect g lane s p w) : Inv g lane (w.1, bagOf p w.2.1 w.2.2 rest) := by
  have hin := h.flight p (Multiset.mem_cons_self _ _)
  have hpn := h.names p (Multiset.mem_cons_self _ _)
  have hr : ∀ q, q ∈ p ::ₘ rest → q ≠ p → q ∈ rest := fun q hq hne => (Multiset.mem_cons.1 hq).resolve_left hne
  have flight' : ∀ {sends gone es t again}, Scattered g lane s p.1 sends gone es t → ∀ q ∈ bagOf p sends again rest, q.1 ∈ g.nodes := by
    intro sends gone es t again hs q hq
    rcases mem_bagOf.1 hq with h1 | ⟨-, rfl⟩ | h1
    · exact hs.flight h.core hin q h1
    · exact hin
    · exact h.flight q (Multiset.mem_cons_of_mem h1)
  have names' : ∀ {sends gone es t again}, Scattered g lane s p.1 sends gone es t → ∀ k, k = t.name → ∀ q ∈ bagOf p sends again rest, q.2 < k := by
    rintro sends gone es t again hs _ rfl q hq
    have hnm := hs.name
    rcases mem_bagOf.1 hq with h1 | ⟨-, rfl⟩ | h1
    · exact (hs.names q h1).2
    · exact Nat.lt_of_lt_of_le hpn hnm
    · exact Nat.lt_of_lt_of_le (h.names q (Multiset.mem_cons_of_mem h1)) hnm
  -- the rule for coverage
  have cover' : ∀ {s' : Job n N V L} {bag' : Multiset (Packet N)}, (∀ q ∈ rest, q ∈ bag') →
      (∀ x y, y ∈ ends s.out x → y ∈ ends s'.out x ∨ (∃ q ∈ bag', q.1 = y) ∨ y = x ∨ ∃ b, (∃ q ∈ bag', q.1 = b) ∧ y ∈ ends s'.out b) →
      (∀ y ∈ ends s'.out p.1, ∃ q ∈ bag', q.1 = p.1) → (∀ x, Fresh lane s' x → Fresh lane s x) →
      (Fresh lane s' p.1 → ∃ q ∈ bag', q.1 = p.1) →
      ∀ m ∈ g.nodes, Fresh lane s' m → ∃ q ∈ bag', Reaches (ends s'.out) q.1 m := by
    intro s' bag' k1 k2 k3 k4 k5 m hm hf
    obtain ⟨q, hq, hqr⟩ := h.cover m hm (k4 m hf)
    rcases cover_step (B := fun x => ∃ q ∈ p ::ₘ rest, q.1 = x) (B' := fun x => ∃ q ∈ bag', q.1 = x) (m := p.1)
      (by
        rintro x ⟨q, hq, rfl⟩
        rcases Multiset.mem_cons.1 hq with rfl | h1
        · exact .inr rfl
        · exact .inl ⟨q, k1 q h1, rfl⟩) k2 k3 ⟨q, hq, rfl⟩ hqr with ⟨x, ⟨q', h1, rfl⟩, h2⟩ | rfl
    · exact ⟨q', h1, h2⟩
    · obtain ⟨q', h1, h2⟩ := k5 hf
      exact ⟨q', h1, by rw [h2]⟩
  have sent : ∀ {sends : List (Packet N)} {again y}, y ∈ sends.map Prod.fst → ∃ q ∈ bagOf p sends again rest, q.1 = y := by
    intro sends again y hy
    obtain ⟨q, hq, e⟩ := List.mem_map.1 hy
    exact ⟨q, mem_bagOf.2 (.inl hq), e⟩
  have keep : ∀ {sends : List (Packet N)} {again q}, q ∈ rest → q ∈ bagOf p sends again rest :=
    fun hq => mem_bagOf.2 (.inr (.inr hq))
  have twin' : ∀ {sends gone es t b}, Fresh lane s p.1 → Scattered g lane s p.1 sends gone es t → s.buffer (lane p.1) = some b → b ≠ p →
      b.1 = p.1 → Inv g lane (nack t, bagOf p sends false rest) := by
    intro sends gone es t b hf hs hb hne hbe
    obtain ⟨-, h2, -⟩ := h.buf _ _ hb
    have hbr := hr b h2 hne
    refine ⟨hs.core.nack, fun i b' hib => ?_, flight' hs, names' hs _ rfl, ?_⟩
    · obtain ⟨j1, j2, j3⟩ := h.buf i b' (by rw [← hs.buffer]; exact hib)
      refine ⟨j1, keep (hr b' j2 ?_), (hs.fresh _).2 j3⟩
      rintro rfl
      have : s.buffer i = some b' := by rw [← hs.buffer]; exact hib
      rw [← j1, hb] at this
      exact hne (Option.some.inj this)
    · refine cover' (fun q hq => keep hq) (fun x y hy => ?_) (fun y hy => ⟨b, keep hbr, hbe⟩) (fun x hx => (hs.fresh x).1 hx) (fun _ => ⟨b, keep hbr, hbe⟩)
      rcases hs.edge x y hy with h1 | h1 | h1
      · exact .inl h1
      · exact .inr (.inl (sent h1))
      · exact .inr (.inr (.inl h1))
  cases he with
  | old hf hb =>
    refine ⟨h.core.nack, fun i b hib => ?_, fun q hq => ?_, fun q hq => ?_, ?_⟩
    · obtain ⟨h1, h2, h3⟩ := h.buf i b hib
      refine ⟨h1, keep (hr b h2 ?_), h3⟩
      rintro rfl; exact hf h3
    · rcases mem_bagOf.1 hq with h1 | ⟨h1, -⟩ | h1
      · cases h1
      · cases h1
      · exact h.flight q (Multiset.mem_cons_of_mem h1)
    · rcases mem_bagOf.1 hq with h1 | ⟨h1, -⟩ | h1
      · cases h1
      · cases h1
      · exact h.names q (Multiset.mem_cons_of_mem h1)
    · refine cover' (fun q hq => keep hq) (fun x y hy => .inl hy) (fun y hy => ?_) (fun x hx => hx) (fun hx => absurd hx hf)
      exfalso
      have hrec : p.1 ∈ s.seen (lane p.1) ∨ p.1 ∈ s.deletions (lane p.1) := by unfold Fresh at hf; tauto
      have := (h.core.recIn _ _ hrec).2
      change y ∈ (s.out p.1).map Prod.snd at hy
      rw [this] at hy; cases hy
  | twin hf hs hb hne hbe => exact twin' hf hs hb hne hbe
  | unbuffer hf hs hb hc' ho hbu hrs her hnm hfr =>
    rename_i s'
    refine ⟨hc', fun i b' hib => ?_, flight' hs, names' hs _ hnm, ?_⟩
    · dsimp only at hib
      rw [hbu] at hib
      by_cases hi : i = lane p.1
      · subst hi; rw [Function.update_self] at hib; cases hib
      · rw [Function.update_of_ne hi, hs.buffer] at hib
        obtain ⟨j1, j2, j3⟩ := h.buf i b' hib
        have hne : b'.1 ≠ p.1 := fun e => hi (by rw [← j1, e])
        exact ⟨j1, keep (hr b' j2 (fun e => hne (by rw [e]))), (hfr _).2 ⟨j3, hne⟩⟩
    · refine cover' (fun q hq => keep hq) (fun x y hy => ?_) (fun y hy => ?_) (fun x hx => ((hfr x).1 hx).1) (fun hx => absurd rfl ((hfr _).1 hx).2)
      · rcases hs.edge x y hy with h1 | h1 | h1
        · exact .inl (by rw [ho]; exact h1)
        · exact .inr (.inl (sent h1))
        · exact .inr (.inr (.inl h1))
      · exfalso
        unfold ends at hy
        dsimp only at hy
        rw [ho, hs.out, Function.update_self] at hy
        cases hy
  | @done sends gone es t s' hf hs hnb hcase hc' hbu hrs her hnm hfr =>
    have hbuf : ∀ i b', s.buffer i = some b' → b'.1 ≠ p.1 := by
      intro i b' hib e
      obtain ⟨j1, -, -⟩ := h.buf i b' hib
      rw [← j1, e] at hib
      exact hnb b' hib e
    refine ⟨hc', fun i b' hib => ?_, flight' hs, names' hs _ hnm, ?_⟩
    · dsimp only at hib
      rw [hbu, hs.buffer] at hib
      obtain ⟨j1, j2, j3⟩ := h.buf i b' hib
      have hne := hbuf i b' hib
      exact ⟨j1, keep (hr b' j2 (fun e => hne (by rw [e]))), (hfr _).2 ⟨j3, hne⟩⟩
    · refine cover' (fun q hq => keep hq) (fun x y hy => ?_) (fun y hy => ?_) (fun x hx => ((hfr x).1 hx).1) (fun hx => absurd rfl ((hfr _).1 hx).2)
      · rcases hs.edge x y hy with h1 | h1 | h1
        · rcases hcase with ⟨-, ho⟩ | ⟨b, hb, ho⟩
          · exact .inl (by rw [ho]; exact h1)
          · have hbne := hnb b hb
            have hbr : ∃ q ∈ bagOf p sends false rest, q.1 = b.1 :=
              ⟨b, keep (hr b (h.buf _ _ hb).2.1 (fun e => hbne (by rw [e]))), rfl⟩
            unfold ends at h1 ⊢
            dsimp only
            rw [ho]
            by_cases hx : x = p.1
            · refine .inr (.inr (.inr ⟨b.1, hbr, ?_⟩))
              rw [Function.update_of_ne hbne, Function.update_self, List.map_append, List.mem_append]
              rw [hx, hs.out, Function.update_self] at h1
              exact .inl h1
            · refine .inl ?_
              rw [Function.update_of_ne hx]
              by_cases hxb : x = b.1
              · rw [hxb, Function.update_self, List.map_append, List.mem_append]
                rw [hxb] at h1
                exact .inr h1
              · rw [Function.update_of_ne hxb]; exact h1
        · exact .inr (.inl (sent h1))
        · exact .inr (.inr (.inl h1))
      · exfalso
        unfold ends at hy
        dsimp only at hy
        rcases hcase with ⟨rfl, ho⟩ | ⟨b, hb, ho⟩
        · rw [ho, hs.out, Function.update_self] at hy
          cases hy
        · rw [ho, Function.update_self] at hy
          cases hy
  | @defer sends gone es t hf hs hb =>
    refine ⟨(hs.core.frame (e := t.err) (fun _ h => h) t.asked t.reserve t.name (Function.update t.buffer (lane p.1) (some p)) t.heap).nack,
      fun i b' hib => ?_, flight' hs, names' hs _ rfl, ?_⟩
    · change Function.update t.buffer (lane p.1) (some p) i = some b' at hib
      by_cases hi : i = lane p.1
      · subst hi
        rw [Function.update_self] at hib
        obtain rfl := Option.some.inj hib
        exact ⟨rfl, mem_bagOf.2 (.inr (.inl ⟨rfl, rfl⟩)), (hs.fresh _).2 hf⟩
      · rw [Function.update_of_ne hi, hs.buffer] at hib
        obtain ⟨j1, j2, j3⟩ := h.buf i b' hib
        have hne : b'.1 ≠ p.1 := fun e => hi (by rw [← j1, e])
        exact ⟨j1, keep (hr b' j2 (fun e => hne (by rw [e]))), (hs.fresh _).2 j3⟩
    · refine cover' (fun q hq => keep hq) (fun x y hy => ?_) (fun y hy => ⟨p, mem_bagOf.2 (.inr (.inl ⟨rfl, rfl⟩)), rfl⟩)
        (fun x hx => (hs.fresh x).1 hx) (fun _ => ⟨p, mem_bagOf.2 (.inr (.inl ⟨rfl, rfl⟩)), rfl⟩)
      rcases hs.edge x y hy with h1 | h1 | h1
      · exact .inl h1
      · exact .inr (.inl (sent h1))
      · exact .inr (.inr (.inl h1))
  | @spin sends gone es t hf hs hre hb =>
    refine ⟨hs.core, fun i b' hib => ?_, flight' hs, names' hs _ rfl, ?_⟩
    · change t.buffer i = some b' at hib
      rw [hs.buffer] at hib
      obtain ⟨j1, j2, j3⟩ := h.buf i b' hib
      refine ⟨j1, ?_, (hs.fresh _).2 j3⟩
      by_cases e : b' = p
      · exact mem_bagOf.2 (.inr (.inl ⟨rfl, e⟩))
      · exact keep (hr b' j2 e)
    · refine cover' (fun q hq => keep hq) (fun x y hy => ?_) (fun y hy => ⟨p, mem_bagOf.2 (.inr (.inl ⟨rfl, rfl⟩)), rfl⟩)
        (fun x hx => (hs.fresh x).1 hx) (fun _ => ⟨p, mem_bagOf.2 (.inr (.inl ⟨rfl, rfl⟩)), rfl⟩)
      rcases hs.edge x y hy with h1 | h1 | h1
      · exact .inl h1
      · exact .inr (.inl (sent h1))
      · exact .inr (.inr (.inl h1))
  | @drop sends gone es t b hf hs hb hne hbe => exact twin' hf hs hb hne hbe

end Cru.Free
