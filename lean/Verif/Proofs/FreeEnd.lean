import Verif.Proofs.FreeBag
import Verif.Proofs.FairDone

/-! # The end of reclamation -/

namespace Cru.Free

open Net

variable {n : Nat} {N V L : Type} [DecidableEq N] {g : Gr N V L} {lane : N → Fin n} {s : Job n N V L}

section
variable {hash : N → Nat} {hn : 0 < n}

theorem produced_eq (vertex : N → V) (s : Job n N V L) (p : Packet N) (rest : Multiset (Packet N)) :
    Bag.produced (task vertex hash hn) s p + rest =
      bagOf p (handle vertex (Build.lane hn (hash p.1)) s p).2.1 (handle vertex (Build.lane hn (hash p.1)) s p).2.2 rest := rfl

theorem Inv.start (h : g.WF) (lane : N → Fin n) (heap : Nat → Bool) (reserve : Nat) :
    Inv g lane (start g heap reserve, {first g}) where
  core :=
    { seenLane := fun i m hm => by cases hm
      delLane := fun i m hm => by cases hm
      delErr := fun i hm => absurd rfl hm
      nodup := fun i => List.nodup_nil
      freedNodup := List.nodup_nil
      freedIff := fun m => by simp [Free.start]
      recIn := fun i m hm => by rcases hm with h | h <;> cases h
      vert := rfl
      labels := by show (([] : List L) : Multiset L) + _ = _; rw [Multiset.coe_nil, zero_add]; rfl
      edges := fun m hm e he => (h.reach _).2 (((h.reach m).1 hm).tail (List.mem_map.2 ⟨e, he, rfl⟩))
      undef := rfl }
  buf i b hb := by cases hb
  flight p hp := by rw [Multiset.mem_singleton.1 hp]; exact (h.reach _).2 .refl
  names p hp := by rw [Multiset.mem_singleton.1 hp]; exact Nat.one_pos
  cover m hm _ := ⟨first g, Multiset.mem_singleton_self _, (h.reach m).1 hm⟩

theorem Inv.env {x : Job n N V L × Multiset (Packet N)} (h : Inv g lane x) (e : Event n) :
    Inv g lane ((task g.vertex hash hn).env e x.1, x.2) := by
  cases e with
  | heap hp => exact ⟨h.core.frame (e := x.1.err) (fun _ h => h) x.1.asked x.1.reserve x.1.name x.1.buffer hp, h.buf, h.flight, h.names, h.cover⟩
  | reserve r => exact ⟨h.core.frame (e := x.1.err) (fun _ h => h) x.1.asked r x.1.name x.1.buffer x.1.heap, h.buf, h.flight, h.names, h.cover⟩
  | raise i =>
    refine ⟨h.core.frame (e := Function.update x.1.err i true) (fun j hj => ?_) x.1.asked x.1.reserve x.1.name x.1.buffer x.1.heap, h.buf, h.flight, h.names, h.cover⟩
    by_cases e : j = i
    · subst e; simp
    · rw [Function.update_of_ne e]; exact hj

theorem inv_bag (h : g.WF) {heap : Nat → Bool} {reserve : Nat} {x : Job n N V L × Multiset (Packet N)}
    (hx : Bag.Reach (task g.vertex hash hn) (first g) (start g heap reserve) x) : Inv g (fun m => Build.lane hn (hash m)) x := by
  induction hx with
  | init => exact Inv.start h _ heap reserve
  | step hr hs ih =>
    cases hs with
    | env e s m => exact ih.env e
    | handle s p rest =>
      exact Effect.inv ih (ih.core.handle h.nodup ih.buffers p (ih.flight p (Multiset.mem_cons_self _ _)))

end

/-! ## Freeing what's left -/

omit [DecidableEq N] in
theorem remaining_eq (nodes : List N) (out : N → List (L × N)) :
    remaining nodes out = ((nodes.flatMap fun m => (out m).map Prod.fst : List L) : Multiset L) := by
  induction nodes with
  | nil => rfl
  | cons a l ih =>
    unfold remaining at ih ⊢
    rw [List.map_cons, List.sum_cons, ih, List.flatMap_cons, Multiset.coe_add]

/-- Freeing nodes one after another. -/
theorem free_all (vertex : N → V) : ∀ (l : List N) (s : Job n N V L), (∀ m ∈ l, m ∉ s.freed) → l.Nodup →
    (l.foldl (freeNode vertex) s).freed = l.reverse ++ s.freed ∧
    (l.foldl (freeNode vertex) s).vertices = (l.map vertex).reverse ++ s.vertices ∧
    (((l.foldl (freeNode vertex) s).labels : List L) : Multiset L) = (s.labels : Multiset L) + remaining l s.out ∧
    (l.foldl (freeNode vertex) s).undef = s.undef := by
  intro l
  induction l with
  | nil => intro s _ _; simp [remaining]
  | cons a l ih =>
    intro s hf hd
    obtain ⟨h1, h2⟩ := List.nodup_cons.1 hd
    obtain ⟨i1, i2, i3, i4⟩ := ih (freeNode vertex s a) (fun m hm => by
      show m ∉ a :: s.freed
      rw [List.mem_cons]
      rintro (rfl | h)
      · exact h1 hm
      · exact hf m (List.mem_cons_of_mem _ hm) h) h2
    rw [List.foldl_cons]
    refine ⟨?_, ?_, ?_, ?_⟩
    · rw [i1]; show _ ++ (a :: s.freed) = _; simp
    · rw [i2]; show _ ++ (vertex a :: s.vertices) = _; simp
    · rw [i3]
      have hrem : remaining l (freeNode vertex s a).out = remaining l s.out := by
        unfold remaining
        congr 1
        refine List.map_congr_left fun m hm => ?_
        have : (freeNode vertex s a).out m = s.out m := Function.update_of_ne (by rintro rfl; exact h1 hm) _ _
        rw [this]
      rw [hrem]
      show ((((s.out a).map Prod.fst).reverse ++ s.labels : List L) : Multiset L) + _ = _
      rw [← Multiset.coe_add, Multiset.coe_reverse, add_comm (((s.out a).map Prod.fst : List L) : Multiset L), add_assoc]
      rfl
    · rw [i4]
      show (s.undef || decide (a ∈ s.freed)) = _
      simp [hf a List.mem_cons_self]

theorem alone_disposed (h : g.WF) {e : Int} (he : e ≠ badGph) : Disposed g (alone g e) := by
  unfold alone
  rw [if_neg he]
  obtain ⟨h1, h2, h3, h4⟩ := free_all g.vertex g.nodes (start (n := 0) g (fun _ => true) 0) (fun m _ hm => by cases hm) h.nodup
  refine ⟨?_, ?_, ?_, h4⟩
  · show List.Perm (Job.freed (List.foldl _ _ _)) _
    rw [h1]
    show List.Perm (g.nodes.reverse ++ []) _
    rw [List.append_nil]; exact List.reverse_perm _
  · show List.Perm (Job.vertices (List.foldl _ _ _)) _
    rw [h2]
    show List.Perm ((g.nodes.map g.vertex).reverse ++ []) _
    rw [List.append_nil]; exact List.reverse_perm _
  · rw [← Multiset.coe_eq_coe, ← remaining_eq]
    show ((Job.labels (List.foldl _ _ _) : List L) : Multiset L) = _
    rw [h3]
    show (([] : List L) : Multiset L) + _ = _
    rw [Multiset.coe_nil, zero_add]; rfl

/-- With no packets left, everything has been recorded, and freeing the deletions completes the job. -/
theorem Inv.disposed (hd : g.nodes.Nodup) (h : Inv g lane (s, 0)) : Disposed g (finish g.vertex s).log := by
  have hall : ∀ m ∈ g.nodes, m ∈ s.freed ∨ m ∈ s.deletions (lane m) := by
    intro m hm
    by_contra hc
    push Not at hc
    obtain ⟨p, hp, -⟩ := h.cover m hm ⟨fun h1 => hc.1 ((h.core.freedIff m).2 h1), hc.2⟩
    exact absurd hp (Multiset.notMem_zero _)
  have hmem : ∀ m, m ∈ (List.finRange n).flatMap s.deletions ↔ m ∈ s.deletions (lane m) := by
    intro m
    rw [List.mem_flatMap]
    constructor
    · rintro ⟨i, -, hi⟩
      rw [h.core.delLane i m hi]; exact hi
    · intro hm; exact ⟨lane m, List.mem_finRange _, hm⟩
  have hnd : ((List.finRange n).flatMap s.deletions).Nodup := by
    rw [List.nodup_flatMap]
    refine ⟨fun i _ => (List.nodup_append.1 (h.core.nodup i)).1, (List.nodup_finRange n).imp fun {i j} hij => ?_⟩
    intro m h1 h2
    exact hij ((h.core.delLane i m h1).symm.trans (h.core.delLane j m h2))
  have hnf : ∀ m ∈ (List.finRange n).flatMap s.deletions, m ∉ s.freed := by
    intro m hm hf
    exact (List.nodup_append.1 (h.core.nodup (lane m))).2.2 m ((hmem m).1 hm) m ((h.core.freedIff m).1 hf) rfl
  obtain ⟨h1, h2, h3, h4⟩ := free_all g.vertex ((List.finRange n).flatMap s.deletions) s hnf hnd
  have hperm : (((List.finRange n).flatMap s.deletions).reverse ++ s.freed).Perm g.nodes := by
    rw [List.perm_ext_iff_of_nodup _ hd]
    · intro m
      rw [List.mem_append, List.mem_reverse, hmem, h.core.freedIff]
      constructor
      · rintro (h1 | h1)
        · exact (h.core.recIn _ m (.inr h1)).1
        · exact (h.core.recIn _ m (.inl h1)).1
      · intro hm
        rcases hall m hm with h1 | h1
        · exact .inr ((h.core.freedIff m).1 h1)
        · exact .inl h1
    · rw [List.nodup_append]
      refine ⟨List.nodup_reverse.2 hnd, h.core.freedNodup, ?_⟩
      rintro x hx y hy rfl
      exact hnf x (List.mem_reverse.1 hx) hy
  have hout : ∀ m ∈ g.nodes, s.out m = [] := by
    intro m hm
    rcases hall m hm with h1 | h1
    · exact (h.core.recIn _ m (.inl ((h.core.freedIff m).1 h1))).2
    · exact (h.core.recIn _ m (.inr h1)).2
  have hz : ∀ l : List N, (∀ m ∈ l, m ∈ g.nodes) → remaining l s.out = 0 := by
    intro l hl
    unfold remaining
    rw [List.map_congr_left (g := fun _ => (0 : Multiset L)) fun m hm => by rw [hout m (hl m hm)]; rfl]
    simp
  refine ⟨?_, ?_, ?_, h4.trans h.core.undef⟩
  · show List.Perm (Job.freed (List.foldl _ _ _)) _
    rw [h1]; exact hperm
  · show List.Perm (Job.vertices (List.foldl _ _ _)) _
    rw [h2, h.core.vert, ← List.map_reverse, ← List.map_append]
    exact hperm.map _
  · rw [← Multiset.coe_eq_coe, ← remaining_eq]
    show ((Job.labels (List.foldl _ _ _) : List L) : Multiset L) = _
    rw [h3, hz _ (fun m hm => (h.core.recIn _ m (.inr ((hmem m).1 hm))).1), add_zero, ← h.core.labels, hz _ (fun _ h => h), add_zero]

/-! ## Termination -/

/-- Edges left. -/
def edgesLeft (nodes : List N) (out : N → List (L × N)) : Nat := (nodes.map fun m => (out m).length).sum

theorem edgesLeft_update {nodes : List N} (hd : nodes.Nodup) {m : N} (hm : m ∈ nodes) (out : N → List (L × N)) (x : List (L × N)) :
    edgesLeft nodes (Function.update out m x) + (out m).length = edgesLeft nodes out + x.length := by
  have := sum_update (fun m => (out m).length) m x.length nodes hd hm
  unfold edgesLeft
  rw [← this]
  congr 2
  refine List.map_congr_left fun y _ => ?_
  by_cases h : y = m
  · subst h; simp
  · simp [Function.update_of_ne h]

open Classical in
/-- Nodes not recorded yet. -/
noncomputable def unrecorded (nodes : List N) (lane : N → Fin n) (s : Job n N V L) : Nat := (nodes.filter fun m => decide (Fresh lane s m)).length

theorem unrecorded_congr {nodes : List N} {s s' : Job n N V L} (h : ∀ x, Fresh lane s' x ↔ Fresh lane s x) :
    unrecorded nodes lane s' = unrecorded nodes lane s := by
  unfold unrecorded
  congr 2
  funext x
  exact decide_eq_decide.2 (h x)

theorem unrecorded_lt {nodes : List N} {s s' : Job n N V L} {m : N} (hm : m ∈ nodes) (hf : Fresh lane s m)
    (h : ∀ x, Fresh lane s' x ↔ Fresh lane s x ∧ x ≠ m) : unrecorded nodes lane s' < unrecorded nodes lane s := by
  classical
  unfold unrecorded
  have hsub : ∀ l : List N, (l.filter fun m => decide (Fresh lane s' m)).Sublist (l.filter fun m => decide (Fresh lane s m)) := by
    intro l
    refine List.monotone_filter_right l fun x hx => ?_
    rw [decide_eq_true_eq] at hx ⊢
    exact ((h x).1 hx).1
  refine lt_of_le_of_ne (hsub nodes).length_le fun e => ?_
  have heq := (hsub nodes).eq_of_length e
  have : m ∈ nodes.filter fun m => decide (Fresh lane s' m) := by
    rw [heq, List.mem_filter]; exact ⟨hm, by simpa using hf⟩
  rw [List.mem_filter, decide_eq_true_eq] at this
  exact ((h m).1 this.2).2 rfl

/-- Buffers in use. -/
def free (s : Job n N V L) : Nat := ((List.finRange n).filter fun i => (s.buffer i).isNone).length

theorem free_lt {s s' : Job n N V L} {i : Fin n} {p : Packet N} (h : s.buffer i = none) (h' : s'.buffer = Function.update s.buffer i (some p)) :
    free s' < free s := by
  unfold free
  have hsub : ((List.finRange n).filter fun i => (s'.buffer i).isNone).Sublist ((List.finRange n).filter fun i => (s.buffer i).isNone) := by
    refine List.monotone_filter_right _ fun j hj => ?_
    rw [h'] at hj
    by_cases e : j = i
    · subst e; simp [Function.update_self] at hj
    · rw [Function.update_of_ne e] at hj; exact hj
  refine lt_of_le_of_ne hsub.length_le fun e => ?_
  have heq := hsub.eq_of_length e
  have : i ∈ (List.finRange n).filter fun i => (s'.buffer i).isNone := by
    rw [heq, List.mem_filter]; exact ⟨List.mem_finRange _, by simp [h]⟩
  rw [List.mem_filter, h', Function.update_self] at this
  exact absurd this.2 (by simp)

/-- Workers with no error. -/
def calm (s : Job n N V L) : Nat := ((List.finRange n).filter fun i => !s.err i).length

theorem calm_le {s s' : Job n N V L} (h : ∀ j, s.err j = true → s'.err j = true) : calm s' ≤ calm s := by
  unfold calm
  refine (List.monotone_filter_right (List.finRange n) fun j hj => ?_).length_le
  rcases hs : s.err j with _ | _
  · rfl
  · rw [h j hs] at hj; exact hj

theorem calm_lt {s s' : Job n N V L} (h : ∀ j, s.err j = true → s'.err j = true) {i : Fin n} (h1 : s.err i = false) (h2 : s'.err i = true) :
    calm s' < calm s := by
  unfold calm
  have hsub : ((List.finRange n).filter fun i => !s'.err i).Sublist ((List.finRange n).filter fun i => !s.err i) := by
    refine List.monotone_filter_right (List.finRange n) fun j hj => ?_
    rcases hs : s.err j with _ | _
    · rfl
    · rw [h j hs] at hj; exact hj
  refine lt_of_le_of_ne hsub.length_le fun e => ?_
  have heq := hsub.eq_of_length e
  have : i ∈ (List.finRange n).filter fun i => !s'.err i := by
    rw [heq, List.mem_filter]; exact ⟨List.mem_finRange _, by simp [h1]⟩
  rw [List.mem_filter, h2] at this
  exact absurd this.2 (by simp)

noncomputable def weight (g : Gr N V L) (lane : N → Fin n) (x : Job n N V L × Multiset (Packet N)) : Nat ×ₗ Nat ×ₗ Nat ×ₗ Nat ×ₗ Nat :=
  toLex (calm x.1, toLex (edgesLeft g.nodes x.1.out, toLex (unrecorded g.nodes lane x.1, toLex (Multiset.card x.2, free x.1))))

theorem lex5 {k k' a b c d a' b' c' d' : Nat} (hk : k ≤ k')
    (h : k < k' ∨ (a < a' ∨ a = a' ∧ (b < b' ∨ b = b' ∧ (c < c' ∨ c = c' ∧ d < d')))) :
    (toLex (k, toLex (a, toLex (b, toLex (c, d)))) : Nat ×ₗ Nat ×ₗ Nat ×ₗ Nat ×ₗ Nat) < toLex (k', toLex (a', toLex (b', toLex (c', d')))) := by
  simp only [Prod.Lex.toLex_lt_toLex]
  rcases Nat.lt_or_eq_of_le hk with h1 | h1
  · exact .inl h1
  · exact .inr ⟨h1, h.resolve_left (by omega)⟩

/-- The state in which the work can go on: there's a packet in reserve, or one that will be put into it when it's been handled. -/
structure Live (g : Gr N V L) (lane : N → Fin n) (x : Job n N V L × Multiset (Packet N)) : Prop where
  inv : Inv g lane x
  live : x.2 ≠ 0 → x.1.reserve ≠ 0 ∨ ∃ p ∈ x.2, x.1.buffer (lane p.1) ≠ some p

def Ready (lane : N → Fin n) (s : Job n N V L) (p : Packet N) : Prop := s.buffer (lane p.1) ≠ some p ∨ s.reserve ≠ 0

theorem Scattered.left (hd : g.nodes.Nodup) {m : N} (hm : m ∈ g.nodes) {sends : List (Packet N)} {gone rest : List (L × N)} {t : Job n N V L}
    (h : Scattered g lane s m sends gone rest t) :
    edgesLeft g.nodes t.out + gone.length = edgesLeft g.nodes s.out := by
  have h1 := edgesLeft_update hd hm s.out rest
  rw [← h.out, h.edges, List.length_append] at h1
  omega

theorem Effect.live {p : Packet N} {rest : Multiset (Packet N)} (h : Live g lane (s, p ::ₘ rest))
    {w : Job n N V L × List (Packet N) × Bool} (he : Effect g lane s p w) : Live g lane (w.1, bagOf p w.2.1 w.2.2 rest) := by
  refine ⟨he.inv h.inv, fun _ => ?_⟩
  -- packets that have just been sent aren't in any buffer
  have new : ∀ {sends gone es t q}, Scattered g lane s p.1 sends gone es t → q ∈ sends → ∀ i, s.buffer i ≠ some q := by
    intro sends gone es t q hs hq i e
    have h1 := h.inv.names q (h.inv.buf i q e).2.1
    have h2 := (hs.names q hq).1
    dsimp only at h1
    omega
  have hl := h.live (Multiset.cons_ne_zero)
  cases he with
  | old hf hb => exact .inl (nack_ne _)
  | twin hf hs hb hne hbe => exact .inl (nack_ne _)
  | @unbuffer sends gone t s' hf hs hb hc' ho hbu hrs her hnm hfr =>
    by_cases hz : t.reserve = 0
    · refine .inr ?_
      rcases hl with h1 | ⟨q, hq, hq'⟩
      · obtain ⟨q, hq⟩ := List.exists_mem_of_ne_nil _ (hs.spent h1 hz)
        refine ⟨q, mem_bagOf.2 (.inl hq), ?_⟩
        show s'.buffer _ ≠ _
        rw [hbu, hs.buffer]
        by_cases e : lane q.1 = lane p.1
        · rw [e, Function.update_self]; simp
        · rw [Function.update_of_ne e]; exact new hs hq _
      · have hqp : q ≠ p := by rintro rfl; exact hq' hb
        refine ⟨q, mem_bagOf.2 (.inr (.inr ((Multiset.mem_cons.1 hq).resolve_left hqp))), ?_⟩
        show s'.buffer _ ≠ _
        rw [hbu, hs.buffer]
        by_cases e : lane q.1 = lane p.1
        · rw [e, Function.update_self]; simp
        · rw [Function.update_of_ne e]; exact hq'
    · exact .inl (by dsimp only; rw [hrs]; exact hz)
  | done hf hs hnb hcase hc' hbu hrs her hnm hfr => exact .inl hrs
  | defer hf hs hb => exact .inl (nack_ne _)
  | @spin sends gone es t hf hs hre hb =>
    by_cases hz : t.reserve = 0
    · refine .inr ?_
      rcases hl with h1 | ⟨q, hq, hq'⟩
      · obtain ⟨q, hq⟩ := List.exists_mem_of_ne_nil _ (hs.spent h1 hz)
        refine ⟨q, mem_bagOf.2 (.inl hq), ?_⟩
        show t.buffer _ ≠ _
        rw [hs.buffer]
        exact new hs hq _
      · have hqp : q ≠ p := by rintro rfl; exact hq' hb
        refine ⟨q, mem_bagOf.2 (.inr (.inr ((Multiset.mem_cons.1 hq).resolve_left hqp))), ?_⟩
        show t.buffer _ ≠ _
        rw [hs.buffer]
        exact hq'
    · exact .inl hz
  | drop hf hs hb hne hbe => exact .inl (nack_ne _)

/-- Handling a packet makes progress unless it's merely deferred. -/
theorem Effect.progress (hd : g.nodes.Nodup) (hbs : Buffers g lane s) {p : Packet N} {rest : Multiset (Packet N)} (hin : p.1 ∈ g.nodes)
    {w : Job n N V L × List (Packet N) × Bool} (he : Effect g lane s p w) :
    weight g lane (w.1, bagOf p w.2.1 w.2.2 rest) < weight g lane (s, p ::ₘ rest) ∨
    (w.2 = ([], true) ∧ ¬ Ready lane s p ∧ (∀ q, Ready lane s q → Ready lane w.1 q) ∧
      weight g lane (w.1, p ::ₘ rest) = weight g lane (s, p ::ₘ rest)) := by
  have hcons : ∀ {sends : List (Packet N)}, sends = [] → Multiset.card (bagOf p sends false rest) < Multiset.card (p ::ₘ rest) := by
    rintro _ rfl
    simp [bagOf]
  have hsame : ∀ {sends gone es t}, Scattered g lane s p.1 sends gone es t → weight g lane (nack t, bagOf p sends false rest) < weight g lane (s, p ::ₘ rest) := by
    intro sends gone es t hs
    have hle := hs.left hd hin
    refine lex5 (calm_le hs.err) ?_
    rcases gone with _ | ⟨c, gone⟩
    · rcases hs.quiet rfl with hq | ⟨i, h1, h2⟩
      · exact .inr (.inr ⟨(show edgesLeft g.nodes t.out = edgesLeft g.nodes s.out by simpa using hle), .inr ⟨unrecorded_congr hs.fresh, .inl (hcons hq)⟩⟩)
      · exact .inl (calm_lt hs.err h1 h2)
    · refine .inr (.inl ?_)
      rw [List.length_cons] at hle
      show edgesLeft _ t.out < edgesLeft _ s.out
      omega
  cases he with
  | old hf hb => exact .inl (lex5 (Nat.le_refl _) (.inr (.inr ⟨rfl, .inr ⟨rfl, .inl (hcons rfl)⟩⟩)))
  | twin hf hs hb hne hbe => exact .inl (hsame hs)
  | @unbuffer sends gone t s' hf hs hb hc' ho hbu hrs her hnm hfr =>
    refine .inl (lex5 (calm_le fun j hj => her j (hs.err j hj)) ?_)
    have hle := hs.left hd hin
    rw [← ho] at hle
    rcases Nat.eq_zero_or_pos gone.length with h0 | h0
    · exact .inr (.inr ⟨by simp only; omega, .inl (unrecorded_lt hin hf hfr)⟩)
    · exact .inr (.inl (by simp only; omega))
  | @done sends gone es t s' hf hs hnb hcase hc' hbu hrs her hnm hfr =>
    refine .inl (lex5 (calm_le fun j hj => her j (hs.err j hj)) ?_)
    have hle := hs.left hd hin
    have he : edgesLeft g.nodes s'.out = edgesLeft g.nodes t.out := by
      rcases hcase with ⟨-, ho⟩ | ⟨b, hb, ho⟩
      · rw [ho]
      · obtain ⟨-, hbi, -⟩ := hbs _ _ hb
        have hne := hnb b hb
        have h1 := edgesLeft_update hd hbi t.out (es ++ t.out b.1)
        have h2 := edgesLeft_update hd hin (Function.update t.out b.1 (es ++ t.out b.1)) []
        rw [Function.update_of_ne hne.symm, hs.out, Function.update_self, ← hs.out] at h2
        rw [List.length_append] at h1
        rw [ho]
        simp only [List.length_nil] at h2
        omega
    rcases Nat.eq_zero_or_pos gone.length with h0 | h0
    · exact .inr (.inr ⟨by simp only; omega, .inl (unrecorded_lt hin hf hfr)⟩)
    · exact .inr (.inl (by simp only; omega))
  | @defer sends gone es t hf hs hb =>
    refine .inl (lex5 (calm_le hs.err) ?_)
    have hle := hs.left hd hin
    rcases gone with _ | ⟨c, gone⟩
    · rcases hs.quiet rfl with hq | ⟨i, h1, h2⟩
      swap
      · exact .inl (calm_lt hs.err h1 h2)
      refine .inr (.inr ⟨(show edgesLeft g.nodes t.out = edgesLeft g.nodes s.out by simpa using hle), .inr ⟨unrecorded_congr hs.fresh, .inr ⟨?_, ?_⟩⟩⟩)
      · rw [hq]; simp [bagOf]
      · refine free_lt hb (p := p) ?_
        show Function.update t.buffer _ _ = _
        rw [hs.buffer]
    · refine .inr (.inl ?_)
      rw [List.length_cons] at hle
      show edgesLeft _ t.out < edgesLeft _ s.out
      omega
  | @spin sends gone es t hf hs hre hb =>
    have hle := hs.left hd hin
    rcases gone with _ | ⟨c, gone⟩
    · rcases Nat.lt_or_eq_of_le (calm_le hs.err) with hlt | heq
      · exact .inl (lex5 (Nat.le_of_lt hlt) (.inl hlt))
      have hsn := (hs.quiet rfl).resolve_right (fun ⟨i, h1, h2⟩ => absurd (calm_lt hs.err h1 h2) (by omega))
      subst hsn
      have hr0 : s.reserve = 0 := by
        by_contra hne
        exact hs.spent hne (hs.short hre) rfl
      refine .inr ⟨rfl, ?_, fun q hq => ?_, ?_⟩
      · rintro (h1 | h1)
        · exact h1 hb
        · exact h1 hr0
      · rcases hq with h1 | h1
        · left; show t.buffer _ ≠ _; rw [hs.buffer]; exact h1
        · exact absurd hr0 h1
      · unfold weight
        have h1 : edgesLeft g.nodes t.out = edgesLeft g.nodes s.out := by simpa using hle
        have h2 : free t = free s := by unfold free; rw [hs.buffer]
        dsimp only
        rw [h1, unrecorded_congr hs.fresh, h2, heq]
    · refine .inl (lex5 (calm_le hs.err) (.inr (.inl ?_)))
      rw [List.length_cons] at hle
      show edgesLeft _ t.out < edgesLeft _ s.out
      omega
  | drop hf hs hb hne hbe => exact .inl (hsame hs)

variable {hash : N → Nat} {hn : 0 < n}

theorem advances (hd : g.nodes.Nodup) :
    Advances (task g.vertex hash hn) (Live g fun m => Build.lane hn (hash m)) (weight g fun m => Build.lane hn (hash m))
      (Ready fun m => Build.lane hn (hash m)) where
  keep s p rest h :=
    Effect.live h (h.inv.core.handle hd h.inv.buffers p (h.inv.flight p (Multiset.mem_cons_self _ _)))
  handle s p rest h :=
    Effect.progress hd h.inv.buffers (h.inv.flight p (Multiset.mem_cons_self _ _))
      (h.inv.core.handle hd h.inv.buffers p (h.inv.flight p (Multiset.mem_cons_self _ _)))
  exists_ready s b h hne := by
    rcases h.live hne with h1 | ⟨p, hp, h1⟩
    · obtain ⟨p, hp⟩ := Multiset.exists_mem_of_ne_zero hne
      exact ⟨p, hp, .inr h1⟩
    · exact ⟨p, hp, .inl h1⟩

end Cru.Free
