import Verif.Proofs.GatherBag

/-! # The end of putting nodes on lists -/

namespace Cru.Gather

open Net
open Free (Packet newPacket nack scatter finish1 remaining Core Fresh Scattered Effect Buffers Inv bagOf)

variable {n : Nat} {N V L : Type} [DecidableEq N] {g : Gr N V L} {lane : N → Fin n}

theorem Good.all {s : Job n N V L} (h : Good g lane (s, 0)) {m : N} (hm : m ∈ g.nodes) : m ∈ s.deletions (lane m) := by
  by_contra hc
  obtain ⟨p, hp, -⟩ := h.1.cover m hm ((fresh_iff _ _).2 hc)
  exact absurd hp (Multiset.notMem_zero _)

theorem Good.perm (hd : g.nodes.Nodup) {s : Job n N V L} (h : Good g lane (s, 0)) : (survivors s).Perm g.nodes := by
  have hn : (survivors s).Nodup := view_nodup h.2
  rw [List.perm_ext_iff_of_nodup hn hd]
  intro m
  exact (mem_view h.2 m).trans ⟨h.2.nodes _ m, h.all⟩

theorem Good.gathered (hd : g.nodes.Nodup) {s : Job n N V L} (h : Good g lane (s, 0)) : Gathered g lane s where
  nodes := h.perm hd
  lanes := h.2.lanes
  labels := by
    rw [← Multiset.coe_eq_coe, ← Multiset.coe_add, ← Free.remaining_eq, ← Free.remaining_eq]
    exact h.2.labels

omit [DecidableEq N] in
theorem remaining_perm {l l' : List N} (h : l.Perm l') (out : N → List (L × N)) : remaining l out = remaining l' out :=
  (h.map _).sum_eq

theorem Good.swept (hd : g.nodes.Nodup) {s : Job n N V L} (h : Good g lane (s, 0)) : Free.Disposed g (sweep g.vertex s) := by
  obtain ⟨f1, f2, f3⟩ := h.2.freed
  obtain ⟨h1, h2, h3, h4⟩ := Free.free_all g.vertex (survivors s) s.toJob (fun m _ hm => by rw [f1] at hm; cases hm) (view_nodup h.2)
  have hp := h.perm hd
  refine ⟨?_, ?_, ?_, h4.trans f3⟩
  · show List.Perm (Free.Job.freed (List.foldl _ _ _)) _
    rw [h1, f1, List.append_nil]; exact (List.reverse_perm _).trans hp
  · show List.Perm (Free.Job.vertices (List.foldl _ _ _)) _
    rw [h2, f2, List.append_nil]; exact (List.reverse_perm _).trans (hp.map _)
  · rw [← Multiset.coe_eq_coe, ← Free.remaining_eq]
    show ((Free.Job.labels (List.foldl _ _ _) : List L) : Multiset L) = _
    rw [h3, remaining_perm hp]
    exact h.2.labels

/-! ## Without errors -/

theorem update_true {e : Fin n → Bool} {i : Fin n} (j : Fin n) (h : e j = true) : Function.update e i true j = true := by
  by_cases hj : j = i
  · subst hj; simp
  · rw [Function.update_of_ne hj]; exact h

theorem record_fields (i : Fin n) (m : N) (s : Free.Job n N V L) : (record i m s).out = s.out ∧ (record i m s).labels = s.labels ∧
    (∀ j, s.err j = true → (record i m s).err j = true) := by
  unfold record
  by_cases h : s.heap s.asked = true
  · rw [if_pos h]; exact ⟨rfl, rfl, fun _ h => h⟩
  · rw [if_neg h]; exact ⟨rfl, rfl, fun j hj => update_true j hj⟩

theorem finish1_fields (i : Fin n) (p : Packet N) (s : Free.Job n N V L) : (finish1 i p s).out = s.out ∧ (finish1 i p s).labels = s.labels ∧
    (finish1 i p s).err = s.err := by
  unfold finish1
  by_cases h : s.buffer i = some p
  · rw [if_pos h]; exact ⟨rfl, rfl, rfl⟩
  · rw [if_neg h]; exact ⟨rfl, rfl, rfl⟩

theorem keep_fields (i : Fin n) (p : Packet N) (s : Free.Job n N V L) : (keep i p s).out = s.out ∧ (keep i p s).labels = s.labels ∧
    (∀ j, s.err j = true → (keep i p s).err j = true) := by
  unfold keep
  by_cases h : s.buffer i ≠ some p ∧ (s.buffer i).map Prod.fst = some p.1
  · rw [if_pos h]; exact ⟨rfl, rfl, fun _ h => h⟩
  · rw [if_neg h]
    obtain ⟨h1, h2, h3⟩ := finish1_fields i p (record i p.1 s)
    obtain ⟨h4, h5, h6⟩ := record_fields i p.1 s
    exact ⟨h1.trans h4, h2.trans h5, by rw [h3]; exact h6⟩

theorem short_err (i : Fin n) (p : Packet N) (rest : List (L × N)) (sends : List (Packet N)) (t : Free.Job n N V L) (j : Fin n) (h : t.err j = true) :
    (short i p rest sends t).1.err j = true := by
  unfold short
  rcases t.buffer i with _ | b
  · exact h
  · dsimp only
    split
    · exact (keep_fields i p _).2.2 j h
    · split
      · exact h
      · exact h

theorem consume_err (i : Fin n) (p : Packet N) (sends : List (Packet N)) (s : Free.Job n N V L) (j : Fin n) (h : s.err j = true) :
    (consume i p sends s).1.err j = true := by
  obtain ⟨a, e, r, k, gone, h1, -, -, h4⟩ := Free.scatter_spec i p.1 (s.out p.1) s
  have ht : (scatter i p.1 (s.out p.1) s).1.err j = true := by rw [h1]; exact h4 j h
  unfold consume
  dsimp only
  split
  · exact (keep_fields i p _).2.2 j ht
  · exact short_err i p _ _ _ j ht

/-- With no errors or kills after a packet is handled, there were none before, and nothing has been changed. -/
theorem handle_intact {wary : Bool} {i : Fin n} {s : Job n N V L} {p : Packet N}
    (h : ∀ j, (handle wary i s p).1.err j = false ∧ (handle wary i s p).1.killed j = false) :
    (∀ j, s.err j = false ∧ s.killed j = false) ∧ (handle wary i s p).1.out = s.out ∧ (handle wary i s p).1.labels = s.labels := by
  have key : ∀ {a : Free.Job n N V L}, (∀ j, s.err j = true → a.err j = true) → (∀ j, a.err j = false ∧ s.killed j = false) →
      ∀ j, s.err j = false ∧ s.killed j = false := by
    intro a h1 h2 j
    refine ⟨?_, (h2 j).2⟩
    rcases he : s.err j with _ | _
    · rfl
    · rw [← (h2 j).1, h1 j he]
  generalize hw : handle wary i s p = w at *
  unfold handle at hw
  by_cases hrec : recorded wary i p.1 s = true
  · rw [if_pos hrec] at hw
    subst hw
    obtain ⟨h1, h2, h3⟩ := finish1_fields i p s.toJob
    exact ⟨key (fun j hj => by rw [h3]; exact hj) h, h1, h2⟩
  · rw [if_neg hrec] at hw
    dsimp only at hw
    by_cases hstop : (s.err i || s.killed i) = true
    · exfalso
      rw [if_pos hstop] at hw
      dsimp only at hw
      rw [if_neg (by simp)] at hw
      subst hw
      have hb := key (fun j hj => consume_err i p [] s.toJob j hj) h i
      rw [hb.1, hb.2] at hstop
      cases hstop
    · rw [if_neg hstop] at hw
      obtain ⟨hsp, hfail⟩ := spray_spec i (s.out p.1) s.toJob
      by_cases hok : (spray i (s.out p.1) s.toJob).2.2 = true
      · rw [if_pos hok] at hw
        subst hw
        obtain ⟨h1, h2, h3⟩ := keep_fields i p (spray i (s.out p.1) s.toJob).1
        obtain ⟨a, e, k, m, ho⟩ := hsp.only
        exact ⟨key (fun j hj => h3 j (hsp.err j hj)) h, h1.trans (by rw [ho]), h2.trans (by rw [ho])⟩
      · exfalso
        rw [if_neg hok] at hw
        subst hw
        have := consume_err i p (spray i (s.out p.1) s.toJob).2.1 _ i (hfail (by simpa using hok))
        rw [(h i).1] at this
        cases this

section
variable {wary : Bool} {hash : N → Nat} {hn : 0 < n}

theorem intact_bag {heap : Nat → Bool} {reserve : Nat} {x : Job n N V L × Multiset (Packet N)}
    (hx : Bag.Reach (task wary hash hn) (Free.first g) (start g heap reserve) x) (hq : ∀ i, x.1.err i = false ∧ x.1.killed i = false) : Intact g x.1 := by
  induction hx with
  | init => exact ⟨rfl, rfl⟩
  | step hr hs ih =>
    cases hs with
    | env e s m =>
      cases e with
      | heap hp => exact ih hq
      | reserve r => exact ih hq
      | raise i => have := (hq i).1; simp [task] at this
      | kill i => have := (hq i).2; simp [task] at this
    | handle s p rest =>
      obtain ⟨h1, h2, h3⟩ := handle_intact hq
      obtain ⟨h4, h5⟩ := ih h1
      exact ⟨h2.trans h4, h3.trans h5⟩

/-! ## Termination -/

/-- As with graphs being freed. -/
structure Live (g : Gr N V L) (lane : N → Fin n) (x : Job n N V L × Multiset (Packet N)) : Prop where
  live : Free.Live g lane (view g lane x.1.toJob, x.2)
  base : Base g lane x.1.toJob

theorem advances (hd : g.nodes.Nodup) :
    Advances (task wary hash hn) (Live g fun m => Build.lane hn (hash m)) (fun x => Free.weight g (fun m => Build.lane hn (hash m)) (view g (fun m => Build.lane hn (hash m)) x.1.toJob, x.2))
      (fun s p => Free.Ready (fun m => Build.lane hn (hash m)) (view g (fun m => Build.lane hn (hash m)) s.toJob) p) where
  keep s p rest h := by
    obtain ⟨h1, h2⟩ := handles hd h.base (wary := wary) h.live.inv.buffers p (h.live.inv.flight p (Multiset.mem_cons_self _ _))
    exact ⟨Effect.live h.live h1, h2⟩
  handle s p rest h := by
    obtain ⟨h1, -⟩ := handles hd h.base (wary := wary) h.live.inv.buffers p (h.live.inv.flight p (Multiset.mem_cons_self _ _))
    exact Effect.progress hd h.live.inv.buffers (h.live.inv.flight p (Multiset.mem_cons_self _ _)) h1
  exists_ready s b h hne := by
    rcases h.live.live hne with h1 | ⟨p, hp, h1⟩
    · obtain ⟨p, hp⟩ := Multiset.exists_mem_of_ne_zero hne
      exact ⟨p, hp, .inr h1⟩
    · exact ⟨p, hp, .inl h1⟩

end

/-! ## Properties -/

theorem mem_unpropped (h : Base g lane (s : Job n N V L).toJob) {head : N} (m : N) :
    m ∈ unpropped head s ↔ m ∈ s.deletions (lane m) ∧
      (s.err (lane m) = true ∨ lane m = lane head ∧ m ∈ tail head (s.deletions (lane head)) ∧ head ∈ s.deletions (lane head)) := by
  have ha : ∀ x, x ∈ ((List.finRange n).flatMap fun i => if s.err i then s.deletions i else []) ↔ x ∈ s.deletions (lane x) ∧ s.err (lane x) = true := by
    intro x
    rw [List.mem_flatMap]
    constructor
    · rintro ⟨i, -, hi⟩
      by_cases he : s.err i = true
      · rw [if_pos he] at hi
        rw [h.lanes i x hi]; exact ⟨hi, he⟩
      · rw [if_neg he] at hi; cases hi
    · rintro ⟨h1, h2⟩
      exact ⟨lane x, List.mem_finRange _, by rw [if_pos h2]; exact h1⟩
  have ht : ∀ x, x ∈ ((List.finRange n).flatMap fun i => if head ∈ s.deletions i then tail head (s.deletions i) else []) ↔
      x ∈ tail head (s.deletions (lane head)) ∧ head ∈ s.deletions (lane head) := by
    intro x
    rw [List.mem_flatMap]
    constructor
    · rintro ⟨i, -, hi⟩
      by_cases he : head ∈ s.deletions i
      · rw [if_pos he] at hi
        rw [h.lanes i head he]; exact ⟨hi, he⟩
      · rw [if_neg he] at hi; cases hi
    · rintro ⟨h1, h2⟩
      exact ⟨lane head, List.mem_finRange _, by rw [if_pos h2]; exact h1⟩
  have hsub : ∀ x, x ∈ tail head (s.deletions (lane head)) → x ∈ s.deletions (lane x) ∧ lane x = lane head := by
    intro x hx
    have h1 : x ∈ s.deletions (lane head) := (List.dropWhile_sublist _).subset hx
    have h2 := h.lanes _ x h1
    exact ⟨by rw [h2]; exact h1, h2⟩
  unfold unpropped
  dsimp only
  rw [List.mem_append, List.mem_filter, ht, decide_eq_true_iff, ha]
  constructor
  · rintro (⟨h1, h2⟩ | ⟨⟨h1, h2⟩, -⟩)
    · exact ⟨h1, .inl h2⟩
    · exact ⟨(hsub m h1).1, .inr ⟨(hsub m h1).2, h1, h2⟩⟩
  · rintro ⟨h1, h2 | ⟨h2, h3, h4⟩⟩
    · exact .inl ⟨h1, h2⟩
    · by_cases he : s.err (lane m) = true
      · exact .inl ⟨h1, he⟩
      · exact .inr ⟨⟨h3, h4⟩, fun hc => he hc.2⟩

end Cru.Gather
