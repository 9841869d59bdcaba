import Verif.Proofs.MutateBound
import Verif.Props.Induce

/-! # Mutation from beginning to end -/

namespace Cru.Mutate

open Net

variable {n : Nat} {N V L : Type} [DecidableEq N]
variable {k : Kernel V L} {p : Plan} {g : Gr N V L} {b : N} {hash : N → Nat} {hn : 0 < n}

theorem mutual_of_duplex [DecidableEq L] (p : Plan) (hg : g.WF) (hd : g.Duplex) (hin : ∀ m ∈ g.nodes, ∀ e ∈ g.inn m, e.2 ∈ g.nodes) : Mutual p g := by
  have hout : ∀ m ∈ g.nodes, ∀ e ∈ g.out m, e.2 ∈ g.nodes := fun m hm e he =>
    (hg.reach _).2 (((hg.reach _).1 hm).tail (List.mem_map.2 ⟨e, he, rfl⟩))
  have hsym : ∀ m ∈ g.nodes, ∀ t ∈ g.nodes, t ∈ (g.out m).map Prod.snd ↔ m ∈ (g.inn t).map Prod.snd := by
    intro m hm t ht
    simp only [List.mem_map, Prod.exists, exists_eq_right]
    refine exists_congr fun l => ?_
    rw [← List.count_pos_iff, ← List.count_pos_iff, hd m hm t ht l]
  by_cases c : p.backwards = p.remoteFirst
  · refine ⟨fun m hm t ht => ?_, fun m hm e he => ?_, fun m hm t ht => ?_⟩
    · simp only [prior, before, if_pos c, List.mem_map] at ht
      obtain ⟨e, h1, rfl⟩ := ht
      exact hin m hm e h1
    · rw [after, if_pos c] at he; exact hout m hm e he
    · simp only [prior, before, after, if_pos c]; exact hsym m hm t ht
  · refine ⟨fun m hm t ht => ?_, fun m hm e he => ?_, fun m hm t ht => ?_⟩
    · simp only [prior, before, if_neg c, List.mem_map] at ht
      obtain ⟨e, h1, rfl⟩ := ht
      exact hout m hm e h1
    · rw [after, if_neg c] at he; exact hin m hm e he
    · simp only [prior, before, after, if_neg c]; exact (hsym t ht m hm).symm

theorem analyzed_exact {backwards : Bool} {reach : Fin n → Option (List N)} (h : Induce.Analyzed g backwards b hash hn 0 reach) (hb : b ≠ g.base)
    (i : Fin n) (m : N) : Near reach i m ↔ ((∃ t, Reaches (g.next backwards) b t ∧ Build.lane hn (hash t) = i) →
      Reaches (g.next backwards) b m ∧ Build.lane hn (hash m) = i) := by
  rcases h with ⟨h, -⟩ | ⟨-, z, hz, hd, hk, rfl⟩
  · exact absurd h hb
  · have hbag := reach_bag hn hz
    have hp := (inv_finished (i₀ := b) (reach_inv hn hz) (by rw [hd]; trivial)).1
    rw [hp] at hbag
    let W := Trav.walker (n := n) (S := Unit) (g.next backwards) (fun _ s _ => (s, 0)) hash hn
    have h2 : W.Inv b z.g 0 := by exact Walker.inv_reach (g₀ := Trav.start ()) (fun i => rfl) (z.g, 0) hbag
    have herr : ∀ i, z.g.err i = 0 := by
      exact Trav.induct (motive := fun _ err _ => ∀ i, err i = 0) (fun _ => rfl) (fun seen err mem m h _ _ _ i => by
        by_cases hi : i = Build.lane hn (hash m)
        · subst hi; rw [Function.update_self]
        · rw [Function.update_of_ne hi]; exact h i) _ hbag
    have key : ∀ i m, m ∈ z.g.seen i ↔ Reaches (g.next backwards) b m ∧ Build.lane hn (hash m) = i := by
      intro i m
      have h3 := Walker.visited_iff h2 (fun i => ⟨herr i, Trav.stop_inv _ hbag hk i⟩) m
      constructor
      · intro hm
        exact ⟨h3.1 (Walker.mem_visited.2 ⟨i, hm⟩), h2.home i m hm⟩
      · rintro ⟨hm, rfl⟩
        obtain ⟨j, hj⟩ := Walker.mem_visited.1 (h3.2 hm)
        have : Build.lane hn (hash m) = j := h2.home j m hj
        rw [this]; exact hj
    unfold Near
    dsimp only
    split
    · rename_i he
      refine ⟨fun _ h => ?_, fun _ l hl => (by cases hl)⟩
      obtain ⟨t, ht⟩ := h
      have := (key i t).2 ht
      rw [he] at this; cases this
    · rename_i he
      obtain ⟨t, ht⟩ := List.exists_mem_of_ne_nil _ he
      refine ⟨fun h _ => (key i m).1 (h _ rfl), fun h l hl => ?_⟩
      cases hl
      exact (key i m).2 (h ⟨t, (key i t).1 ht⟩)

/-- What's left out, if anything is. -/
def Left (g : Gr N V L) (p : Plan) (b : N) (lane : N → Fin n) (m : N) : Prop := p.unordered = false ∧ Omitted g p b lane m

theorem far_iff {reach : Fin n → Option (List N)} (ha : Analyzed g p b hash hn 0 reach) (m : N) :
    m ∈ g.nodes ∧ ¬ Near reach (Build.lane hn (hash m)) m ↔ Left g p b (fun m => Build.lane hn (hash m)) m := by
  unfold Analyzed at ha
  unfold Left Omitted
  by_cases c : p.unordered = true
  · rw [if_pos c] at ha
    subst ha
    simp [Near, c]
  · rw [if_neg c] at ha
    have c' : p.unordered = false := by simpa using c
    by_cases hb : b = g.base
    · rcases ha with ⟨-, rfl⟩ | ⟨h, -⟩
      · simp [Near, hb]
      · exact absurd hb h
    · rw [analyzed_exact ha hb]
      simp only [c', true_and, and_true, _root_.not_imp, ne_eq, hb, not_false_eq_true]
      exact ⟨fun ⟨a, b, c⟩ => ⟨a, c, b⟩, fun ⟨a, b, c⟩ => ⟨a, c, b⟩⟩

theorem begins_iff (hk : k.Sequential p) (hord : p.unordered = false) (m : N) : begins k p (g.out m) (g.inn m) = true ↔ prior p g m = [] := by
  unfold begins Plan.prerequisites Kernel.independent prior before
  obtain ⟨h1, h2⟩ := hk
  have h1' : k.vop.isSome = true := Option.isSome_iff_ne_none.2 h1
  have h1'' : k.vop.isNone = false := by simpa using h1'
  have hf := forward_iff p
  by_cases c : p.backwards = p.remoteFirst
  · simp only [hord, hf.2 c, if_pos c, h1', h1'', Bool.and_true, Bool.false_or, Bool.false_eq_true, if_true, if_false, List.map_eq_nil_iff,
      List.isEmpty_iff, Bool.or_eq_true, Bool.and_eq_true]
    rw [if_pos c] at h2
    rcases hs : k.eop.isSome with _ | _
    · have : k.eop = none := by simpa using hs
      have h2' := h2.resolve_left (by simp [this])
      simp [h2']; tauto
    · simp; tauto
  · have hff : p.forward = false := by
      rcases h : p.forward with _ | _
      · rfl
      · exact absurd (hf.1 h) c
    simp only [hord, hff, if_neg c, h1', h1'', Bool.and_true, Bool.false_or, Bool.false_eq_true, if_false, List.map_eq_nil_iff,
      List.isEmpty_iff, Bool.or_eq_true, Bool.and_eq_true]
    rw [if_neg c] at h2
    rcases hs : k.eop.isSome with _ | _
    · have : k.eop = none := by simpa using hs
      have h2' := h2.resolve_left (by simp [this])
      simp [h2']
    · simp

theorem begins_all (h : p.unordered = true ∨ k.Simultaneous) (m : N) : begins k p (g.out m) (g.inn m) = true := by
  unfold begins
  rcases h with h | h
  · simp [Plan.prerequisites, h]
  · have : k.independent = (true, true) := by
      unfold Kernel.independent
      rcases h with h | ⟨h1, h2, h3⟩
      · simp [h]
      · simp [h1, h2, h3]
    simp [this]

/-- What's known of the end of mutation if it isn't killed while bounding. -/
structure Ended (k : Kernel V L) (p : Plan) (g : Gr N V L) (turn : N → Prop) (Val : N → V → List (L × N) → Prop) (s : Job n N V L) : Prop where
  mutated : IsMutated k p g turn Val ⟨g.nodes, g.base, s.vertex, s.out, s.inn⟩
  nodup : s.log.Nodup
  log : ∀ m, m ∈ s.log ↔ m ∈ g.nodes ∧ turn m

omit [DecidableEq N] in
theorem after_result (p : Plan) (g : Gr N V L) (s : Job n N V L) (m : N) : after p (⟨g.nodes, g.base, s.vertex, s.out, s.inn⟩ : Gr N V L) m = s.post p m := by
  unfold after Job.post
  have := forward_iff p
  by_cases c : p.backwards = p.remoteFirst
  · rw [if_pos c, if_pos (this.2 c)]
  · rw [if_neg c, if_neg (fun h => c (this.1 h))]

omit [DecidableEq N] in
theorem before_result (p : Plan) (g : Gr N V L) (s : Job n N V L) (m : N) : before p (⟨g.nodes, g.base, s.vertex, s.out, s.inn⟩ : Gr N V L) m = s.pre p m := by
  unfold before Job.pre
  have := forward_iff p
  by_cases c : p.backwards = p.remoteFirst
  · rw [if_pos c, if_pos (this.2 c)]
  · rw [if_neg c, if_neg (fun h => c (this.1 h))]

/-- From the invariants to the outcome. -/
theorem Good.ended {lane : N → Fin n} {far : N → Bool} {Val : N → V → List (L × N) → Prop} {s : Job n N V L} (hM : Mutual p g)
    (h : Good lane far k p g Val s) {turn : N → Prop} (ht : ∀ m ∈ g.nodes, s.mark m = .mutated ↔ turn m) : Ended k p g turn Val s := by
  refine ⟨⟨rfl, rfl, fun m hm hmt => ?_, fun m hm hmt => ?_, fun m hm => ?_⟩, h.nodup, fun m => ?_⟩
  · rw [after_result]; exact h.val m ((ht m hm).2 hmt)
  · rw [after_result]; exact h.kept m fun hc => hmt ((ht m hm).1 hc)
  · rw [before_result, h.pre m]
    refine arriving_congr fun t htp => ⟨ht t (hM.prior m hm t htp), fun _ => (after_result p g s t).symm⟩
  · rw [h.log]
    exact ⟨fun hm => ⟨h.nodes m hm, (ht m (h.nodes m hm)).1 hm⟩, fun hm => (ht m hm.1).2 hm.2⟩

theorem ended_order (hg : g.WF) (hM : Mutual p g) (hk : k.Sequential p) (hord : p.unordered = false) {reach : Fin n → Option (List N)}
    (ha : Analyzed g p b hash hn 0 reach) {y : State n N (Bounds n N L)}
    (hy : Reach (boundingTask k p g.inn reach hash hn) g.base (Bounds.start g.out) y) (hyd : y.main = .done) (hy0 : y.g.killed = 0)
    {z : State n (Packet n N) (Job n N V L)} (hz : Reach (task k p y.g.survivors hash hn) (.ping ⟨0, hn⟩) (start g y.g) z) (hzd : z.main = .done) :
    Shape k p g z.g ∧ ((∀ i, z.g.err i = 0) →
      Ended k p g (Turn (prior p g) (Omitted g p b fun m => Build.lane hn (hash m)))
        (Becomes k p g (Turn (prior p g) (Omitted g p b fun m => Build.lane hn (hash m)))) z.g ∧
      InTurn (prior p g) (Omitted g p b fun m => Build.lane hn (hash m)) z.g.log.reverse) := by
  obtain ⟨h1, h2⟩ := bounding_done hg hy hyd hy0
  have hfar : (fun m => y.g.far m = true) = Omitted g p b fun m => Build.lane hn (hash m) := by
    funext m
    rw [eq_iff_iff, h1.far m, h2]
    have := far_iff ha m
    simp only [and_true]
    rw [this, Left]
    simp [hord]
  have hsurv : ∀ i m, m ∈ y.g.survivors i ↔ m ∈ g.nodes ∧ Build.lane hn (hash m) = i ∧ y.g.far m = false ∧ prior p g m = [] := by
    intro i m
    rw [h1.surv i m, h2, begins_iff hk hord]
    have hf := h1.far m
    rw [h2] at hf
    rcases hc : y.g.far m with _ | _
    · rw [hc] at hf
      simp only [Bool.false_eq_true, and_true, false_iff, not_and, not_not] at hf
      constructor
      · rintro ⟨⟨a, b⟩, -, c⟩; exact ⟨a, b, rfl, c⟩
      · rintro ⟨a, rfl, -, c⟩; exact ⟨⟨a, rfl⟩, hf a, c⟩
    · rw [hc] at hf
      simp only [true_iff, and_true] at hf
      constructor
      · rintro ⟨⟨a, rfl⟩, d, c⟩; exact absurd d hf.2
      · rintro ⟨a, -, d, c⟩; cases d
  have hc : Closed p g y.g.survivors := ⟨hM.after, fun i m hm => ((hsurv i m).1 hm).1⟩
  have hS : Starts (fun m => Build.lane hn (hash m)) y.g.far y.g.survivors :=
    ⟨h1.nodup, fun i m hm => ((hsurv i m).1 hm).2.1, fun i m hm => ((hsurv i m).1 hm).2.2.1⟩
  have hX : Extra (fun m => Build.lane hn (hash m)) y.g.far y.g.survivors k p g (InOrder y.g.far k p g) (Order y.g.far p g) :=
    order_extra hord hM hc fun i m hm => ((hsurv i m).1 hm).2.2.2
  have h0 : Whole (fun m => Build.lane hn (hash m)) y.g.far y.g.survivors k p g (InOrder y.g.far k p g) (Order y.g.far p g) (start g y.g) {.ping ⟨0, hn⟩} := by
    refine start_whole hn h1.same ⟨fun m hm => ?_, fun m hm => ?_, ?_, fun m hm => ?_, fun m _ _ t _ ht => ?_⟩
    · split at hm <;> cases hm
    · split at hm <;> cases hm
    · intro xs m ys e; simp at e
    · simp at hm
    · split at ht <;> cases ht
  have hw := Whole.reach hX hc hS h0 _ (Rover.done_bag hn hz hzd)
  refine ⟨hw.base.shape, fun he => ?_⟩
  obtain ⟨w1, w2, w3⟩ := hw.good he
  have hst : ∀ i, z.g.started i = true := by
    intro i
    by_contra hne
    obtain ⟨j, -, hj⟩ := hw.base.pings i (by simpa using hne)
    simp at hj
  have hall : ∀ m ∈ g.nodes, y.g.far m = false → prior p g m = [] → z.g.mark m = .mutated := fun m hm hf hp =>
    w3 _ (hst (Build.lane hn (hash m))) m ((hsurv _ m).2 ⟨hm, rfl, hf, hp⟩)
  rw [← hfar]
  exact ⟨w1.ended hM fun m hm => w2.turn_iff hM w1 hall hm, w2.order⟩

theorem ended_direct (hg : g.WF) (hM : Mutual p g) (hk : k.Blind) (hb : p.unordered = true ∨ k.Simultaneous) {reach : Fin n → Option (List N)}
    (ha : Analyzed g p b hash hn 0 reach) {y : State n N (Bounds n N L)}
    (hy : Reach (boundingTask k p g.inn reach hash hn) g.base (Bounds.start g.out) y) (hyd : y.main = .done) (hy0 : y.g.killed = 0)
    {z : State n (Packet n N) (Job n N V L)} (hz : Reach (task k p y.g.survivors hash hn) (.ping ⟨0, hn⟩) (start g y.g) z) (hzd : z.main = .done) :
    Shape k p g z.g ∧ ((∀ i, z.g.err i = 0) →
      Ended k p g (fun m => ¬ Left g p b (fun m => Build.lane hn (hash m)) m) (Directly k p g) z.g) := by
  obtain ⟨h1, h2⟩ := bounding_done hg hy hyd hy0
  have hfar : ∀ m, y.g.far m = true ↔ Left g p b (fun m => Build.lane hn (hash m)) m := by
    intro m
    rw [h1.far m, h2, ← far_iff ha m]
    simp
  have hsurv : ∀ i m, m ∈ y.g.survivors i ↔ m ∈ g.nodes ∧ Build.lane hn (hash m) = i ∧ y.g.far m = false := by
    intro i m
    rw [h1.surv i m, h2, begins_all hb]
    have hf := h1.far m
    rw [h2] at hf
    rcases hc : y.g.far m with _ | _
    · rw [hc] at hf
      simp only [Bool.false_eq_true, and_true, false_iff, not_and, not_not] at hf
      constructor
      · rintro ⟨⟨a, b⟩, -, c⟩; exact ⟨a, b, rfl⟩
      · rintro ⟨a, rfl, -⟩; exact ⟨⟨a, rfl⟩, hf a, rfl⟩
    · rw [hc] at hf
      simp only [true_iff, and_true] at hf
      constructor
      · rintro ⟨⟨a, rfl⟩, d, c⟩; exact absurd d hf.2
      · rintro ⟨a, -, d⟩; cases d
  have hc : Closed p g y.g.survivors := ⟨hM.after, fun i m hm => ((hsurv i m).1 hm).1⟩
  have hS : Starts (fun m => Build.lane hn (hash m)) y.g.far y.g.survivors :=
    ⟨h1.nodup, fun i m hm => ((hsurv i m).1 hm).2.1, fun i m hm => ((hsurv i m).1 hm).2.2⟩
  have hX : Extra (fun m => Build.lane hn (hash m)) y.g.far y.g.survivors k p g (Directly k p g) (fun _ _ _ => True) :=
    blind_extra hk fun m hm hf => (hsurv _ m).2 ⟨hm, rfl, hf⟩
  have h0 : Whole (fun m => Build.lane hn (hash m)) y.g.far y.g.survivors k p g (Directly k p g) (fun _ _ _ => True) (start g y.g) {.ping ⟨0, hn⟩} :=
    start_whole hn h1.same trivial
  have hw := Whole.reach hX hc hS h0 _ (Rover.done_bag hn hz hzd)
  refine ⟨hw.base.shape, fun he => ?_⟩
  obtain ⟨w1, w2, w3⟩ := hw.good he
  have hst : ∀ i, z.g.started i = true := by
    intro i
    by_contra hne
    obtain ⟨j, -, hj⟩ := hw.base.pings i (by simpa using hne)
    simp at hj
  refine w1.ended hM fun m hm => ?_
  rw [← hfar m]
  constructor
  · intro hmm hf
    rw [(w1.far m).2 hf] at hmm; cases hmm
  · intro hf
    exact w3 _ (hst (Build.lane hn (hash m))) m ((hsurv _ m).2 ⟨hm, rfl, by simpa using hf⟩)

/-- It all ends. -/
theorem bounding_acc (hg : g.WF) {reach : Fin n → Option (List N)} : ∀ x, Bag.Reach (boundingTask k p g.inn reach hash hn) g.base (Bounds.start g.out) x →
    Acc (fun y x => Bag.Handles (boundingTask k p g.inn reach hash hn) x y) x :=
  Rover.acc (bounder g.out k p g.inn reach hash hn) (fun _ => rfl) (fun _ _ => rfl) rfl g.nodes fun m hm => (hg.reach m).2 hm

theorem bounding_killed {reach : Fin n → Option (List N)} (i : Fin n) (s : Bounds n N L) (m : N) :
    ((boundingTask k p g.inn reach hash hn).handle i s m).1.killed = s.killed := by
  show (bounding k p g.inn reach i s m).1.killed = s.killed
  rcases bounding_cases (k := k) (p := p) (inn := g.inn) (reach := reach) i s m with ⟨_, sample, stop, e, -⟩ | ⟨_, sample, stop, sv, far, out, ps, e, -⟩ <;> rw [e]

/-- The outcome of bounding, killed or not: nodes are where they belong. -/
structure Tame (lane : N → Fin n) (g : Gr N V L) (s : Bounds n N L) : Prop where
  out : ∀ m, s.out m = g.out m ∨ s.out m = []
  surv : ∀ i, ∀ m ∈ s.survivors i, m ∈ s.seen i

theorem bounding_tame {reach : Fin n → Option (List N)} : ∀ x, Bag.Reach (boundingTask k p g.inn reach hash hn) g.base (Bounds.start g.out) x →
    Tame (fun m => Build.lane hn (hash m)) g x.1 := by
  intro x hx
  induction hx with
  | init => exact ⟨fun m => .inl rfl, fun i m h => (by cases h)⟩
  | step _ hs ih =>
    cases hs with
    | env => exact ⟨ih.out, ih.surv⟩
    | handle s m rest =>
      dsimp only at ih ⊢
      change Tame _ g (bounding k p g.inn reach (Build.lane hn (hash m)) s m).1
      have hpoll : ∃ sample stop, s.poll (Build.lane hn (hash m)) = { s with sample := sample, stop := stop } := by
        obtain ⟨a, b, e, -⟩ := Bounds.poll_eq s (Build.lane hn (hash m)); exact ⟨a, b, e⟩
      obtain ⟨sample, stop, ep⟩ := hpoll
      unfold bounding
      rw [ep]
      dsimp only
      split
      · exact ⟨ih.out, ih.surv⟩
      · have aux : ∀ u : Bounds n N L, (∀ t, u.out t = g.out t ∨ u.out t = []) → (∀ i, ∀ t ∈ u.survivors i, t ∈ s.seen i) →
            (∀ i, u.seen i = Function.update s.seen (Build.lane hn (hash m)) (s.seen (Build.lane hn (hash m)) ++ [m]) i) →
            Tame (fun m => Build.lane hn (hash m)) g (bound k p g.inn reach (Build.lane hn (hash m)) u m) := by
          intro u h1 h2 h3
          have hmono : ∀ i, ∀ t ∈ s.seen i, t ∈ u.seen i := by
            intro i t ht
            rw [h3]
            by_cases c : i = Build.lane hn (hash m)
            · subst c; rw [Function.update_self]; simp [ht]
            · rw [Function.update_of_ne c]; exact ht
          have hadd : ∀ i, ∀ t ∈ Function.update u.survivors (Build.lane hn (hash m)) (m :: u.survivors (Build.lane hn (hash m))) i, t ∈ u.seen i := by
            intro i t ht
            by_cases c : i = Build.lane hn (hash m)
            · subst c
              rw [Function.update_self] at ht
              rcases List.mem_cons.1 ht with rfl | ht
              · rw [h3, Function.update_self]; simp
              · exact hmono _ t (h2 _ t ht)
            · rw [Function.update_of_ne c] at ht; exact hmono i t (h2 i t ht)
          unfold bound
          repeat' split
          all_goals first
            | exact ⟨h1, hadd⟩
            | exact ⟨h1, fun i t ht => hmono i t (h2 i t ht)⟩
        split
        · refine aux _ (fun t => ?_) ih.surv (fun _ => rfl)
          dsimp only
          by_cases c : t = m
          · subst c; right; rw [Function.update_self]
          · rw [Function.update_of_ne c]; exact ih.out t
        · exact aux _ ih.out ih.surv (fun _ => rfl)

/-- The graph that mutation finds after bounding. -/
abbrev bereft (g : Gr N V L) (y : Bounds n N L) : Gr N V L := { g with out := y.out }

theorem bereft_closed (hg : g.WF) (hin : ∀ m ∈ g.nodes, ∀ e ∈ g.inn m, e.2 ∈ g.nodes) {reach : Fin n → Option (List N)} {y : State n N (Bounds n N L)}
    (hy : Reach (boundingTask k p g.inn reach hash hn) g.base (Bounds.start g.out) y) (hyd : y.main = .done) : Closed p (bereft g y.g) y.g.survivors := by
  have hb := Rover.done_bag hn hy hyd
  have ht := bounding_tame _ hb
  have hi := Rover.inv_reach (W := bounder g.out k p g.inn reach hash hn) (a := g.base) (fun i => rfl) (fun m _ => rfl) rfl _ hb
  constructor
  · intro m hm e he
    unfold after at he
    split at he
    · rcases ht.out m with h | h
      · have he' : e ∈ g.out m := by rw [← h]; exact he
        exact (hg.reach _).2 (((hg.reach _).1 hm).tail (List.mem_map.2 ⟨e, he', rfl⟩))
      · have he' : e ∈ y.g.out m := he
        rw [h] at he'; cases he'
    · exact hin m hm e he
  · intro i m hm
    exact (hg.reach m).2 (hi.reach i m (ht.surv i m hm))

theorem bereft_base (y : Bounds n N L) : Base k p (bereft g y) (start g y) {.ping ⟨0, hn⟩} :=
  (start_whole (lane := fun _ => ⟨0, hn⟩) (surv := fun _ => []) (g := bereft g y) (b := y) (Val := fun _ _ _ => True) (X := fun _ _ _ => True) hn rfl trivial).base

/-- A node gets a packet once everything before it is done. -/
def Pend (p : Plan) (g : Gr N V L) (mark : N → Mark) (_ : List N) (bag : Multiset (Packet n N)) : Prop :=
  ∀ m ∈ g.nodes, mark m = .clear → ∀ t ∈ prior p g m, mark t = .mutated → (∀ t ∈ prior p g m, mark t ≠ .clear) → .node m ∈ bag

theorem pend_extra (hM : Mutual p g) {lane : N → Fin n} {far : N → Bool} {surv : Fin n → List N} (hc : Closed p g surv) :
    Extra lane far surv k p g (fun m _ es => k.eop = none → es = after p g m) (Pend p g) := by
  have fire : ∀ {s : Job n N V L} {m bag s'}, m ∈ g.nodes → s.post p m = after p g m → Pend p g s.mark s.log bag → mutate k p s m = .ok s' →
      (∃ v es, Fired k p s m v es s' ∧ (k.eop = none → es = after p g m)) ∧ Pend p g s'.mark s'.log (((deps n p g m : List (Packet n N)) : Multiset (Packet n N)) + bag) := by
    intro s m bag s' hmn hpost hx hs'
    obtain ⟨v, es, -, hrel, hf⟩ := mutate_ok hs'
    refine ⟨⟨v, es, hf, fun hk => ?_⟩, fun m' hm' hcl t ht hmt hall => ?_⟩
    · rw [Relabelled, hk] at hrel; rw [hrel]; exact hpost
    rw [hf.mark] at hcl hmt hall
    have hmm : m' ≠ m := by rintro rfl; rw [Function.update_self] at hcl; cases hcl
    rw [Function.update_of_ne hmm] at hcl
    by_cases c : m ∈ prior p g m'
    · refine Multiset.mem_add.2 (.inl ?_)
      simp only [deps, Multiset.mem_coe, List.mem_map, Packet.node.injEq, exists_eq_right]
      exact List.mem_map.1 ((hM.sym m hmn m' hm').2 c)
    · have hne : ∀ u ∈ prior p g m', u ≠ m := by rintro u hu rfl; exact c hu
      refine Multiset.mem_add.2 (.inr (hx m' hm' hcl t ht ?_ fun u hu => ?_))
      · rw [Function.update_of_ne (hne t ht)] at hmt; exact hmt
      · have := hall u hu
        rw [Function.update_of_ne (hne u hu)] at this; exact this
  refine ⟨fun h m a b t c d e => (Multiset.mem_cons.1 (h m a b t c d e)).resolve_left (by simp),
    fun h m a b t c d e => Multiset.mem_cons_of_mem (h m a b t c d e), fun {mark log m bag} h hd m' a b t c d e => ?_,
    fun hg _ hx hcl hms hs' => fire (hc.surv _ _ hms) (hg.kept _ (by rw [hcl]; simp)).2 hx hs',
    fun hg _ hx hcl _ _ hmn _ hs' => fire hmn (hg.kept _ (by rw [hcl]; simp)).2 hx hs'⟩
  rcases Multiset.mem_cons.1 (h m' a b t c d e) with h1 | h1
  · injection h1 with h1
    subst h1
    rcases hd with hd | ⟨-, u, hu, hd⟩
    · exact absurd b hd
    · exact absurd hd (e u hu)
  · exact h1

omit [DecidableEq N] in
theorem begins_first {m : N} (h : prior p g m = []) : begins k p (g.out m) (g.inn m) = true := by
  have h' : before p g m = [] := List.map_eq_nil_iff.1 h
  unfold before at h'
  unfold begins Plan.prerequisites
  have hf := forward_iff p
  by_cases c : p.backwards = p.remoteFirst
  · rw [if_pos c] at h'
    rw [hf.2 c, h']; simp
  · rw [if_neg c] at h'
    have hff : p.forward = false := by
      rcases h : p.forward with _ | _
      · rfl
      · exact absurd (hf.1 h) c
    rw [hff, h']; simp

/-- What's true of any kernel. -/
theorem ended_any (hg : g.WF) (hM : Mutual p g) {reach : Fin n → Option (List N)}
    (ha : Analyzed g p b hash hn 0 reach) {y : State n N (Bounds n N L)}
    (hy : Reach (boundingTask k p g.inn reach hash hn) g.base (Bounds.start g.out) y) (hyd : y.main = .done) (hy0 : y.g.killed = 0)
    {z : State n (Packet n N) (Job n N V L)} (hz : Reach (task k p y.g.survivors hash hn) (.ping ⟨0, hn⟩) (start g y.g) z) (hzd : z.main = .done)
    (he : ∀ i, z.g.err i = 0) :
    Ended k p g (· ∈ z.g.log) (fun m _ es => k.eop = none → es = after p g m) z.g ∧ (∀ m ∈ z.g.log, ¬ Left g p b (fun m => Build.lane hn (hash m)) m) ∧
    ∀ m ∈ g.nodes, Turn (prior p g) (Left g p b fun m => Build.lane hn (hash m)) m → m ∈ z.g.log := by
  obtain ⟨h1, h2⟩ := bounding_done hg hy hyd hy0
  have hfar : ∀ m, y.g.far m = true ↔ Left g p b (fun m => Build.lane hn (hash m)) m := by
    intro m
    rw [h1.far m, h2, ← far_iff ha m]
    simp
  have hsurv : ∀ i m, m ∈ y.g.survivors i ↔ (m ∈ g.nodes ∧ Build.lane hn (hash m) = i ∧ y.g.far m = false) ∧ begins k p (g.out m) (g.inn m) = true := by
    intro i m
    rw [h1.surv i m, h2]
    have hf := h1.far m
    rw [h2] at hf
    rcases hc : y.g.far m with _ | _
    · rw [hc] at hf
      simp only [Bool.false_eq_true, and_true, false_iff, not_and, not_not] at hf
      constructor
      · rintro ⟨⟨a, b⟩, -, c⟩; exact ⟨⟨a, b, rfl⟩, c⟩
      · rintro ⟨⟨a, rfl, -⟩, c⟩; exact ⟨⟨a, rfl⟩, hf a, c⟩
    · rw [hc] at hf
      simp only [true_iff, and_true] at hf
      constructor
      · rintro ⟨⟨a, rfl⟩, d, c⟩; exact absurd d hf.2
      · rintro ⟨⟨a, -, d⟩, -⟩; cases d
  have hc : Closed p g y.g.survivors := ⟨hM.after, fun i m hm => ((hsurv i m).1 hm).1.1⟩
  have hS : Starts (fun m => Build.lane hn (hash m)) y.g.far y.g.survivors :=
    ⟨h1.nodup, fun i m hm => ((hsurv i m).1 hm).1.2.1, fun i m hm => ((hsurv i m).1 hm).1.2.2⟩
  have h0 : Whole (fun m => Build.lane hn (hash m)) y.g.far y.g.survivors k p g (fun m _ es => k.eop = none → es = after p g m) (Pend p g) (start g y.g) {.ping ⟨0, hn⟩} := by
    refine start_whole hn h1.same fun m _ _ t _ ht => ?_
    dsimp only at ht
    split at ht <;> cases ht
  have hw := Whole.reach (pend_extra hM hc) hc hS h0 _ (Rover.done_bag hn hz hzd)
  obtain ⟨w1, w2, w3⟩ := hw.good he
  have hst : ∀ i, z.g.started i = true := by
    intro i
    by_contra hne
    obtain ⟨j, -, hj⟩ := hw.base.pings i (by simpa using hne)
    simp at hj
  refine ⟨w1.ended hM fun m hm => (w1.log m).symm, fun m hm hl => ?_, fun m hm ht => ?_⟩
  · have hmm := (w1.log m).1 hm
    rw [(w1.far m).2 ((hfar m).2 hl)] at hmm; cases hmm
  · rw [w1.log]
    have hfirst : ∀ m ∈ g.nodes, ¬ Left g p b (fun m => Build.lane hn (hash m)) m → begins k p (g.out m) (g.inn m) = true → z.g.mark m = .mutated := by
      intro m hm hf hbg
      refine w3 _ (hst (Build.lane hn (hash m))) m ((hsurv _ m).2 ⟨⟨hm, rfl, ?_⟩, hbg⟩)
      rw [← hfar m] at hf; simpa using hf
    induction ht with
    | first h3 h4 => exact hfirst _ hm h3 (begins_first h4)
    | @next m t h3 _ h5 _ ih1 ih2 =>
      have ht := ih2 (hM.prior _ hm _ h5)
      by_contra hne
      have hcl : z.g.mark m = .clear := by
        rcases hmk : z.g.mark m with _ | _ | _ | _
        · rfl
        · exact absurd hmk hne
        · exact absurd ((hfar m).1 ((w1.far m).1 hmk)) h3
        · exact absurd hmk (w1.mark m)
      have := w2 m hm hcl t h5 ht fun u hu => ?_
      · simp at this
      · by_cases hl : Left g p b (fun m => Build.lane hn (hash m)) u
        · rw [(w1.far u).2 ((hfar u).2 hl)]; simp
        · rw [ih1 u hu hl (hM.prior _ hm _ hu)]; simp

/-! ## Killed while bounding -/

/-- Few nodes keep their edges once the kill flag is set. -/
def Spare (s : Bounds n N L) : Prop :=
  s.killed ≠ 0 ∧ ∀ i, ((s.seen i).filter fun m => !(s.out m).isEmpty).length ≤ s.sample i ∧
    ((s.seen i).filter fun m => !(s.out m).isEmpty).length ≤ 31 ∧ (s.stop i = false → s.sample i ≤ 31)

theorem spare_handle {inn : N → List (L × N)} {reach : Fin n → Option (List N)} (i : Fin n) (s : Bounds n N L) (m : N) (h : Spare s) :
    Spare (bounding k p inn reach i s m).1 := by
  have hp : Spare (s.poll i) ∧ ((s.poll i).stop i = false →
      (((s.poll i).seen i).filter fun m => !((s.poll i).out m).isEmpty).length + 1 ≤ (s.poll i).sample i ∧ (s.poll i).sample i ≤ 31) := by
    unfold Bounds.poll
    by_cases c : s.stop i = true
    · rw [if_pos c]; exact ⟨h, fun h' => by rw [c] at h'; cases h'⟩
    · rw [if_neg c]
      have hc : s.stop i = false := by simpa using c
      obtain ⟨h1, h2, h3⟩ := h.2 i
      have h3' := h3 hc
      have hk := h.1
      have aux : ((s.sample i + 1) % 32 == 0 && s.killed != 0) = false → s.sample i + 1 ≤ 31 := by
        intro hst
        by_contra hlt
        have : (s.sample i + 1) % 32 = 0 := by omega
        simp [this, hk] at hst
      refine ⟨⟨h.1, fun j => ?_⟩, fun hst => ?_⟩
      · by_cases hj : j = i
        · subst hj
          simp only [Function.update_self]
          exact ⟨by omega, h2, aux⟩
        · simp only [Function.update_of_ne hj]; exact h.2 j
      · simp only [Function.update_self] at hst ⊢
        exact ⟨by omega, aux hst⟩
  have hbound : ∀ u : Bounds n N L, Spare u → Spare (bound k p inn reach i u m) := by
    intro u hu
    obtain ⟨sv, far, e, -⟩ := bound_eq (k := k) (p := p) (inn := inn) (reach := reach) i u m
    rw [e]; exact hu
  unfold bounding
  dsimp only
  split
  · exact hp.1
  · generalize s.poll i = u at hp ⊢
    obtain ⟨hu, hr⟩ := hp
    split
    · refine hbound _ ⟨hu.1, fun j => ?_⟩
      dsimp only
      have hle : ∀ l : List N, (l.filter fun t => !(Function.update u.out m [] t).isEmpty).length ≤ (l.filter fun t => !(u.out t).isEmpty).length := by
        intro l
        refine filter_le fun t _ ht => ?_
        by_cases c : t = m
        · subst c; simp at ht
        · rw [Function.update_of_ne c] at ht; exact ht
      obtain ⟨a, b, c⟩ := hu.2 j
      by_cases hj : j = i
      · subst hj
        rw [Function.update_self, List.filter_append]
        simp only [List.length_append, List.filter_cons, Function.update_self, List.isEmpty_nil, Bool.not_true, Bool.false_eq_true, if_false, List.filter_nil,
          List.length_nil, add_zero]
        exact ⟨(hle _).trans a, (hle _).trans b, c⟩
      · rw [Function.update_of_ne hj]
        exact ⟨(hle _).trans a, (hle _).trans b, c⟩
    · rename_i hst
      refine hbound _ ⟨hu.1, fun j => ?_⟩
      dsimp only
      by_cases hj : j = i
      · subst hj
        rw [Function.update_self, List.filter_append, List.length_append]
        have h1 := hr (by simpa using hst)
        have h2 : ([m].filter fun t => !(u.out t).isEmpty).length ≤ 1 := (List.length_filter_le _ _).trans (by simp)
        exact ⟨by omega, by omega, (hu.2 j).2.2⟩
      · rw [Function.update_of_ne hj]
        exact hu.2 j

end Cru.Mutate
