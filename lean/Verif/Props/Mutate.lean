import Verif.Proofs.MutateSpec
import Verif.Proofs.Demo

/-! # C20, C21 and C84-C88: mutation -/

namespace Cru.Mutate

open Net

variable {n : Nat} {N V L : Type} [DecidableEq N] [DecidableEq L]
variable {k : Kernel V L} {p : Plan} {g : Gr N V L} {b : N} {hash : N → Nat} {hn : 0 < n} {k₁ k₂ k₃ : Nat} {s : Job n N V L}

theorem Full.mutual (h : Full g) (p : Plan) : Mutual p g := mutual_of_duplex p h.wf h.duplex h.inn

theorem Full.prior (h : Full g) {m t : N} (hm : m ∈ g.nodes) (ht : Reaches (prior p g) m t) : t ∈ g.nodes := by
  induction ht with
  | refl => exact hm
  | tail _ hb ih => exact (h.mutual p).prior _ ih _ hb

/-- There's no way back to a vertex along the edges, nor is there then in the other direction. -/
theorem Full.acyclic (h : Full g) (hac : Induce.Acyclic (g.next false) g.base) (p : Plan) :
    ∀ m ∈ g.nodes, ¬ Relation.TransGen (fun x y => y ∈ Mutate.prior p g x) m m := by
  intro m hm hc
  by_cases c : p.backwards = p.remoteFirst
  · -- incoming edges
    have key : ∀ a t, a ∈ g.nodes → Relation.TransGen (fun x y => y ∈ Mutate.prior p g x) a t →
        t ∈ g.nodes ∧ Relation.TransGen (fun x y => y ∈ g.next false x) t a := by
      intro a t ha ht
      have step : ∀ x y, x ∈ g.nodes → y ∈ Mutate.prior p g x → y ∈ g.nodes ∧ x ∈ g.next false y := by
        intro x y hx hy
        have hyn := (h.mutual p).prior x hx y hy
        refine ⟨hyn, ?_⟩
        have := ((h.mutual p).sym y hyn x hx).2 hy
        rw [after, if_pos c] at this
        exact this
      induction ht with
      | single hy => exact ⟨(step _ _ ha hy).1, .single (step _ _ ha hy).2⟩
      | tail _ hy ih => exact ⟨(step _ _ ih.1 hy).1, .head (step _ _ ih.1 hy).2 ih.2⟩
    exact hac m ((h.wf.reach m).1 hm) (key m m hm hc).2
  · have : Mutate.prior p g = g.next false := by
      funext x
      simp only [Mutate.prior, before, if_neg c]
      rfl
    rw [this] at hc
    exact hac m ((h.wf.reach m).1 hm) hc

omit [DecidableEq L] in
theorem omitted_base (m : N) (lane : N → Fin n) : ¬ Omitted g p g.base lane m := fun h => h.1 rfl

omit [DecidableEq L] in
theorem left_base (m : N) (lane : N → Fin n) : ¬ Left g p g.base lane m := fun h => h.2.1 rfl

omit [DecidableEq L] in
theorem outcome_ok {h : Gr N V L} (ho : outcome g s k₃ (.ok h)) : (∀ i, s.err i = 0) ∧ h = ⟨g.nodes, g.base, s.vertex, s.out, s.inn⟩ := by
  rcases ho with ⟨i, -, h⟩ | ⟨h1, h2⟩
  · cases h
  · split at h2
    · cases h2
    · injection h2 with h2
      exact ⟨h1, h2⟩

/-- What C20, C21 and C86 have in common. -/
theorem mutates_order (hg : Full g) (hk : k.Sequential p) (hord : p.unordered = false) {h : Gr N V L} (hr : Mutates g p b k hash hn 0 0 k₃ s (.ok h)) :
    IsMutated k p g (Turn (prior p g) (Omitted g p b fun m => Build.lane hn (hash m)))
      (Becomes k p g (Turn (prior p g) (Omitted g p b fun m => Build.lane hn (hash m)))) h ∧
    s.log.Nodup ∧ (∀ m, m ∈ s.log ↔ m ∈ g.nodes ∧ Turn (prior p g) (Omitted g p b fun m => Build.lane hn (hash m)) m) ∧
    InTurn (prior p g) (Omitted g p b fun m => Build.lane hn (hash m)) s.log.reverse := by
  obtain ⟨reach, ha, y, hy, hyd, hy0, z, hz, hzd, rfl, ho⟩ := hr
  obtain ⟨he, rfl⟩ := outcome_ok ho
  obtain ⟨-, h1⟩ := ended_order hg.wf (hg.mutual p) hk hord ha hy hyd hy0 hz hzd
  obtain ⟨h2, h3⟩ := h1 he
  exact ⟨h2.mutated, h2.nodup, h2.log, h3⟩

/-- C20: mutation of a whole graph without cycles in a constrained order gives every vertex the value that the kernel has for it, given
the new values on the side of the vertices before it and the old ones on the other side.  Every vertex is mutated once, and later than
those before it. -/
theorem C20_order (hg : Full g) (hac : Induce.Acyclic (g.next false) g.base) (hk : k.Sequential p) (hord : p.unordered = false) {h : Gr N V L}
    (hr : Mutates g p g.base k hash hn 0 0 k₃ s (.ok h)) :
    IsMutated k p g (fun _ => True) (Becomes k p g fun _ => True) h ∧
    s.log.Perm g.nodes ∧ InTurn (prior p g) (fun _ => False) s.log.reverse := by
  obtain ⟨h1, h2, h3, h4⟩ := mutates_order hg hk hord hr
  have hturn : ∀ m ∈ g.nodes, Turn (prior p g) (Omitted g p g.base fun m => Build.lane hn (hash m)) m := fun m hm =>
    (turn_acc fun t _ => omitted_base t _).2 (acc_of_acyclic (fun t ht => hg.prior hm ht) fun t ht => hg.acyclic hac p t (hg.prior hm ht))
  refine ⟨h1.congr (hg.mutual p) (fun m hm => iff_of_true (hturn m hm) trivial) fun m hm v es hb => hb.congr fun t ht =>
    iff_of_true (hturn t (hg.prior hm ht)) trivial, (List.perm_ext_iff_of_nodup h2 hg.wf.nodup).2 fun m => ?_, ?_⟩
  · rw [h3]; exact ⟨fun h => h.1, fun h => ⟨h, hturn m h⟩⟩
  · intro xs m ys e t ht
    exact .inr ((h4 xs m ys e t ht).resolve_left (omitted_base t _))

/-- C20: the result depends neither on the number of lanes, nor on the hash function, nor on the schedule. -/
theorem C20_determined (hg : Full g) (hac : Induce.Acyclic (g.next false) g.base) (hk : k.Sequential p) (hord : p.unordered = false) {h h' : Gr N V L}
    (hr : Mutates g p g.base k hash hn 0 0 k₃ s (.ok h)) {n' : Nat} {hash' : N → Nat} {hn' : 0 < n'} {k₃' : Nat} {s' : Job n' N V L}
    (hr' : Mutates g p g.base k hash' hn' 0 0 k₃' s' (.ok h')) : Agree h h' :=
  (C20_order hg hac hk hord hr).1.unique (hg.mutual p) (fun _ _ _ _ _ h1 h2 => h1.unique h2) (C20_order hg hac hk hord hr').1

/-- C20: whatever the kernel and the plan are, every vertex of a graph without cycles is mutated exactly once. -/
theorem C20_once (hg : Full g) (hac : Induce.Acyclic (g.next false) g.base) {h : Gr N V L} (hr : Mutates g p g.base k hash hn 0 0 k₃ s (.ok h)) :
    s.log.Perm g.nodes := by
  obtain ⟨reach, ha, y, hy, hyd, hy0, z, hz, hzd, rfl, ho⟩ := hr
  obtain ⟨he, rfl⟩ := outcome_ok ho
  obtain ⟨h1, -, h3⟩ := ended_any hg.wf (hg.mutual p) ha hy hyd hy0 hz hzd he
  refine (List.perm_ext_iff_of_nodup h1.nodup hg.wf.nodup).2 fun m => ⟨fun hm => ((h1.log m).1 hm).1, fun hm => h3 m hm ?_⟩
  exact (turn_acc fun t _ => left_base t _).2 (acc_of_acyclic (fun t ht => hg.prior hm ht) fun t ht => hg.acyclic hac p t (hg.prior hm ht))

/-- C20: an error comes from a user function, or else it's the one for being killed. -/
theorem C20_error (hg : Full g) {e : Int} (hr : Mutates g p b k hash hn k₁ k₂ k₃ s (.error e)) : Raised k e ∨ (k₃ ≠ 0 ∧ e = Build.intKil) := by
  obtain ⟨reach, ha, y, hy, hyd, -, z, hz, hzd, rfl, ho⟩ := hr
  have hs := (base_reach (bereft_closed hg.wf hg.inn hy hyd) (bereft_base y.g) _ (Rover.done_bag hn hz hzd)).shape
  rcases ho with ⟨i, h1, h2⟩ | ⟨-, h2⟩
  · injection h2 with h2
    rw [h2]; exact .inl (hs.err i h1)
  · right
    split at h2
    · rename_i hk; injection h2 with h2; exact ⟨hk, h2⟩
    · cases h2

/-- C20: mutation ends no matter what the kernel, the plan, and the graph are.  None of the traversals goes on forever, killed or not. -/
theorem C20_ends (hg : Full g) (hb : b ∈ g.nodes) (p : Plan) (k : Kernel V L) (hash : N → Nat) (hn : 0 < n) :
    (∀ reach, ∀ f : Nat → State n N (Bounds n N L), Reach (boundingTask k p g.inn reach hash hn) g.base (Bounds.start g.out) (f 0) →
      ¬ ∀ j, step (boundingTask k p g.inn reach hash hn) g.base .main (f j) = some (f (j + 1)) ∨
        ∃ i, step (boundingTask k p g.inn reach hash hn) g.base (.worker i) (f j) = some (f (j + 1))) ∧
    (∀ reach y, Reach (boundingTask k p g.inn reach hash hn) g.base (Bounds.start g.out) y → y.main = .done →
      ∀ f : Nat → State n (Packet n N) (Job n N V L), Reach (task k p y.g.survivors hash hn) (.ping ⟨0, hn⟩) (start g y.g) (f 0) →
      ¬ ∀ j, step (task k p y.g.survivors hash hn) (.ping ⟨0, hn⟩) .main (f j) = some (f (j + 1)) ∨
        ∃ i, step (task k p y.g.survivors hash hn) (.ping ⟨0, hn⟩) (.worker i) (f j) = some (f (j + 1))) ∧
    ∃ s r, Mutates g p b k hash hn 0 0 0 s r := by
  have hmut : ∀ reach y, Reach (boundingTask k p g.inn reach hash hn) g.base (Bounds.start g.out) y → y.main = .done →
      ∀ x, Bag.Reach (task k p y.g.survivors hash hn) (.ping ⟨0, hn⟩) (start g y.g) x →
        Acc (fun y' x => Bag.Handles (task k p y.g.survivors hash hn) x y') x := fun reach y hy hyd =>
    task_acc (bereft_closed hg.wf hg.inn hy hyd) (bereft_base y.g)
  refine ⟨fun reach f h0 hs => no_infinite_run hn (bounding_acc hg.wf) f h0 hs, fun reach y hy hyd f h0 hs =>
    no_infinite_run hn (hmut reach y hy hyd) f h0 hs, ?_⟩
  obtain ⟨reach, ha⟩ : ∃ reach, Analyzed g p b hash hn 0 reach := by
    unfold Analyzed
    by_cases c : p.unordered = true
    · simp only [c, if_true]; exact ⟨_, rfl⟩
    · simp only [c, Bool.false_eq_true, if_false]
      by_cases hbb : b = g.base
      · exact ⟨_, .inl ⟨hbb, rfl⟩⟩
      · have hf : ∀ m, Reaches (g.next p.backwards) b m → m ∈ g.nodes := by
          intro m hm
          induction hm with
          | refl => exact hb
          | @tail x y _ hxy ih =>
            rcases hbw : p.backwards with _ | _
            · rw [hbw] at hxy
              exact (hg.wf.reach _).2 (((hg.wf.reach _).1 ih).tail hxy)
            · rw [hbw] at hxy
              simp only [Gr.next, if_true, List.mem_map] at hxy
              obtain ⟨e, he, rfl⟩ := hxy
              exact hg.inn x ih e he
        obtain ⟨-, x, h1, h2, h3⟩ := Trav.ends (n := n) (S := Unit) (fun _ s _ => (s, 0)) hash hn () hf
        exact ⟨_, .inr ⟨hbb, x, h1, h2, h3, rfl⟩⟩
  obtain ⟨y, hy, hyd, hy0⟩ := exists_done_inv hn (bounding_acc (k := k) (p := p) (hash := hash) (hn := hn) (reach := reach) hg.wf) (fun s => s.killed = 0) rfl
    fun i s m h => (bounding_killed i s m).trans h
  obtain ⟨z, hz, hzd⟩ := exists_done hn (hmut reach y hy hyd) _ .init
  by_cases he : ∃ i, z.g.err i ≠ 0
  · obtain ⟨i, hi⟩ := he
    exact ⟨_, _, reach, ha, y, hy, hyd, hy0, z, hz, hzd, rfl, .inl ⟨i, hi, rfl⟩⟩
  · push Not at he
    exact ⟨_, _, reach, ha, y, hy, hyd, hy0, z, hz, hzd, rfl, .inr ⟨he, rfl⟩⟩

/-- Mutations that succeed exist if no user function fails. -/
theorem C20_exists (hg : Full g) (hb : b ∈ g.nodes) (hok : ∀ e, ¬ Raised k e) (p : Plan) (hash : N → Nat) (hn : 0 < n) :
    ∃ s h, Mutates g p b k hash hn 0 0 0 s (.ok h) := by
  obtain ⟨s, r, hr⟩ := (C20_ends hg hb p k hash hn).2.2
  rcases r with e | h
  · rcases C20_error hg hr with h | ⟨h, -⟩
    · exact absurd h (hok e)
    · exact absurd rfl h
  · exact ⟨s, h, hr⟩

/-- The vertices in the zone. -/
abbrev Zone (g : Gr N V L) (p : Plan) (b m : N) : Prop := Reaches (g.next p.backwards) b m

/-- C21: with `remote_first`, vertices in the zone become what they should, each of them mutated once, and after those it depends on.
Those outside of the zone are left alone, if their lane has any in the zone. -/
theorem C21_remote_first (hg : Full g) (hb : b ∈ g.nodes) (hbase : b ≠ g.base) (hac : Induce.Acyclic (g.next p.backwards) b) (hrf : p.remoteFirst = true) (hk : k.Sequential p)
    {h : Gr N V L} (hr : Mutates g p b k hash hn 0 0 k₃ s (.ok h)) :
    (∀ m, Zone g p b m → Becomes k p g (Zone g p b) m (h.vertex m) (after p h m) ∧ before p h m = arriving k p g (Zone g p b) (after p h) m ∧ m ∈ s.log) ∧
    (∀ m ∈ g.nodes, ¬ Zone g p b m → (∃ t, Zone g p b t ∧ Build.lane hn (hash t) = Build.lane hn (hash m)) →
      h.vertex m = g.vertex m ∧ after p h m = after p g m ∧ m ∉ s.log) ∧
    s.log.Nodup ∧ InTurn (prior p g) (fun m => ¬ Zone g p b m) s.log.reverse := by
  have hord : p.unordered = false := by simp [Plan.unordered, hrf]
  obtain ⟨h1, h2, h3, h4⟩ := mutates_order hg hk hord hr
  have hpr : prior p g = g.next p.backwards := by
    funext x
    simp only [prior, before, hrf, Gr.next]
  have hzn : ∀ m, Zone g p b m → m ∈ g.nodes := fun m hm => hg.prior hb (by rw [hpr]; exact hm)
  have hzo : ∀ m, Zone g p b m → ¬ Omitted g p b (fun m => Build.lane hn (hash m)) m := fun m hm ho => ho.2.2.1 hm
  have hclosed : ∀ m t, Zone g p b m → Reaches (prior p g) m t → Zone g p b t := fun m t hm ht => by rw [hpr] at ht; exact hm.trans ht
  have hturn : ∀ m, Zone g p b m → Turn (prior p g) (Omitted g p b fun m => Build.lane hn (hash m)) m := fun m hm =>
    (turn_acc fun t ht => hzo t (hclosed m t hm ht)).2
      (acc_of_acyclic (fun t ht => hg.prior (hzn m hm) ht) fun t ht => by rw [hpr]; exact hac t (hclosed m t hm ht))
  refine ⟨fun m hm => ⟨?_, ?_, (h3 m).2 ⟨hzn m hm, hturn m hm⟩⟩, fun m hm hz ⟨t, ht, htl⟩ => ?_, h2, fun xs m ys e t ht => ?_⟩
  · exact (h1.mutated m (hzn m hm) (hturn m hm)).congr fun t ht => iff_of_true (hturn t (hclosed m t hm ht)) (hclosed m t hm ht)
  · rw [h1.matched m (hzn m hm)]
    exact arriving_congr fun t ht => ⟨iff_of_true (hturn t (hclosed m t hm (.single ht))) (hclosed m t hm (.single ht)), fun _ => rfl⟩
  · have hno : ¬ Turn (prior p g) (Omitted g p b fun m => Build.lane hn (hash m)) m := fun c => c.near ⟨hbase, hm, hz, t, ht, htl⟩
    exact ⟨(h1.kept m hm hno).1, (h1.kept m hm hno).2, fun hl => hno ((h3 m).1 hl).2⟩
  · exact (h4 xs m ys e t ht).imp_left fun ho => ho.2.2.1

/-- C21: with `local_first` and a zone that starts from a vertex other than the base vertex, nothing at all is mutated, provided that every
lane has a vertex in the zone, as is the case if there's only one lane. -/
theorem C21_stall (hg : Full g) (hb : b ∈ g.nodes) (hbase : b ≠ g.base) (hlf : p = ⟨false, true, false⟩) (hk : k.Sequential p)
    (hall : ∀ m ∈ g.nodes, ∃ t, Zone g p b t ∧ Build.lane hn (hash t) = Build.lane hn (hash m))
    {h : Gr N V L} (hr : Mutates g p b k hash hn 0 0 k₃ s (.ok h)) : s.log = [] ∧ Agree h g := by
  have hord : p.unordered = false := by rw [hlf]; rfl
  obtain ⟨h1, h2, h3, h4⟩ := mutates_order hg hk hord hr
  have hpr : ∀ m, prior p g m = (g.inn m).map Prod.snd := by rw [hlf]; exact fun m => rfl
  have haf : ∀ m, (after p g m).map Prod.snd = g.next false m := by rw [hlf]; exact fun m => rfl
  have hbw : p.backwards = false := by rw [hlf]
  have hzn : ∀ m, Zone g p b m → m ∈ g.nodes := fun m hm => by
    rw [Zone, hbw] at hm
    exact (hg.wf.reach m).2 (((hg.wf.reach b).1 hb).trans hm)
  -- every vertex in the zone comes after something
  have hpre : ∀ m, Zone g p b m → ∃ t ∈ g.nodes, t ∈ prior p g m ∧ (m ≠ b → Zone g p b t) := by
    intro m hm
    rcases Relation.ReflTransGen.cases_tail hm with rfl | ⟨t, ht, htm⟩
    · rcases Relation.ReflTransGen.cases_tail ((hg.wf.reach _).1 hb) with e | ⟨t, ht, htm⟩
      · exact absurd e hbase
      · have htn := (hg.wf.reach t).2 ht
        exact ⟨t, htn, ((hg.mutual p).sym t htn _ hb).1 (by rw [haf]; exact htm), fun c => absurd rfl c⟩
    · have htn := hzn t ht
      rw [hbw] at htm
      exact ⟨t, htn, ((hg.mutual p).sym t htn m (hzn m hm)).1 (by rw [haf]; exact htm), fun _ => ht⟩
  have hno : ∀ m, Turn (prior p g) (Omitted g p b fun m => Build.lane hn (hash m)) m → m ∈ g.nodes → False := by
    intro m hm
    induction hm with
    | @first m h5 h6 =>
      intro hmn
      have hz : Zone g p b m := by
        by_contra hz
        obtain ⟨t, ht, htl⟩ := hall m hmn
        exact h5 ⟨hbase, hmn, hz, t, ht, htl⟩
      obtain ⟨t, -, ht, -⟩ := hpre m hz
      rw [h6] at ht; cases ht
    | @next m t h5 _ h7 _ _ ih =>
      exact fun hmn => ih ((hg.mutual p).prior m hmn t h7)
  refine ⟨?_, h1.nodes, h1.base, fun m hm => ?_, fun m hm => ?_, fun m hm => ?_⟩
  · rcases hl : s.log with _ | ⟨m, ms⟩
    · rfl
    · have := (h3 m).1 (by rw [hl]; simp)
      exact (hno m this.2 this.1).elim
  · rw [h1.nodes] at hm; exact (h1.kept m hm fun c => hno m c hm).1
  · rw [h1.nodes] at hm
    have := (h1.kept m hm fun c => hno m c hm).2
    rw [hlf] at this; exact this
  · rw [h1.nodes] at hm
    have h5 := h1.matched m hm
    have h6 : arriving k p g (Turn (prior p g) (Omitted g p b fun m => Build.lane hn (hash m))) (after p h) m = before p g m := by
      unfold arriving
      split
      · rfl
      · refine patch_none fun e he => if_neg fun c => hno e.2 c ((hg.mutual p).prior m hm e.2 (List.mem_map.2 ⟨e, he, rfl⟩))
    rw [h6, hlf] at h5
    exact h5

/-- C21: a vertex outside of the zone is mutated nevertheless if its lane has none in the zone and it doesn't depend on anything. -/
theorem C21_escape (hg : Full g) (hk : k.Sequential p) (hord : p.unordered = false) {h : Gr N V L} (hr : Mutates g p b k hash hn 0 0 k₃ s (.ok h))
    {m : N} (hm : m ∈ g.nodes) (hfree : ∀ t, Zone g p b t → Build.lane hn (hash t) ≠ Build.lane hn (hash m)) (h0 : prior p g m = []) :
    ¬ Zone g p b m ∧ m ∈ s.log ∧ Becomes k p g (fun _ => False) m (h.vertex m) (after p h m) := by
  obtain ⟨h1, h2, h3, h4⟩ := mutates_order hg hk hord hr
  have ht : Turn (prior p g) (Omitted g p b fun m => Build.lane hn (hash m)) m := .first (fun ⟨_, _, _, t, h5, h6⟩ => hfree t h5 h6) h0
  refine ⟨fun hz => hfree m hz rfl, (h3 m).2 ⟨hm, ht⟩, ?_⟩
  have := h1.mutated m hm ht
  cases this with
  | intro val post a b' c d =>
    have harr : arriving k p g (fun _ => False) post m = arriving k p g (Turn (prior p g) (Omitted g p b fun m => Build.lane hn (hash m))) post m :=
      arriving_congr fun t ht' => by rw [h0] at ht'; cases ht'
    refine .intro val post (fun _ _ h => h.elim) (fun t ht' _ => by rw [h0] at ht'; cases ht') ?_ d
    dsimp only at c ⊢
    rw [harr]; exact c

/-- C21: if the order isn't constrained, the zone is ignored, and the whole graph is mutated. -/
theorem C21_ignored (hg : Full g) (hun : p.unordered = true) (hk : k.Unconstrained) {h : Gr N V L} (hr : Mutates g p b k hash hn k₁ 0 k₃ s (.ok h)) :
    IsMutated k p g (fun _ => True) (Directly k p g) h ∧ s.log.Perm g.nodes := by
  obtain ⟨reach, ha, y, hy, hyd, hy0, z, hz, hzd, rfl, ho⟩ := hr
  obtain ⟨he, rfl⟩ := outcome_ok ho
  have ha0 : Analyzed g p b hash hn 0 reach := by
    unfold Analyzed at ha ⊢
    rw [if_pos hun] at ha ⊢
    exact ha
  have h1 := (ended_direct hg.wf (hg.mutual p) hk.blind (.inl hun) ha0 hy hyd hy0 hz hzd).2 he
  have hturn : ∀ m, ¬ Left g p b (fun m => Build.lane hn (hash m)) m := fun m h => by have := h.1; rw [hun] at this; cases this
  refine ⟨h1.mutated.congr (hg.mutual p) (fun m _ => iff_of_true (hturn m) trivial) fun m _ v es h => h, ?_⟩
  refine (List.perm_ext_iff_of_nodup h1.nodup hg.wf.nodup).2 fun m => ?_
  rw [h1.log]
  exact ⟨fun h => h.1, fun h => ⟨h, hturn m⟩⟩

/-- C84: if the order isn't constrained, or if the kernel is such that it needn't be, new vertices and labels are what the kernel has for the
original ones, whether there are cycles or not, and in whatever order they're visited. -/
theorem C84_simultaneous (hg : Full g) (hk : (p.unordered = true ∧ k.Unconstrained) ∨ k.Simultaneous) {h : Gr N V L}
    (hr : Mutates g p g.base k hash hn 0 0 k₃ s (.ok h)) : IsMutated k p g (fun _ => True) (Directly k p g) h ∧ s.log.Perm g.nodes := by
  obtain ⟨reach, ha, y, hy, hyd, hy0, z, hz, hzd, rfl, ho⟩ := hr
  obtain ⟨he, rfl⟩ := outcome_ok ho
  have h1 := (ended_direct hg.wf (hg.mutual p) (hk.elim (fun h => h.2.blind) fun h => h.blind) (hk.imp_left fun h => h.1) ha hy hyd hy0 hz hzd).2 he
  refine ⟨h1.mutated.congr (hg.mutual p) (fun m _ => iff_of_true (left_base m _) trivial) fun m _ v es h => h, ?_⟩
  refine (List.perm_ext_iff_of_nodup h1.nodup hg.wf.nodup).2 fun m => ?_
  rw [h1.log]
  exact ⟨fun h => h.1, fun h => ⟨h, left_base m _⟩⟩

/-- C84: the result depends neither on the number of lanes, nor on the hash function, nor on the schedule. -/
theorem C84_determined (hg : Full g) (hk : (p.unordered = true ∧ k.Unconstrained) ∨ k.Simultaneous) {h h' : Gr N V L}
    (hr : Mutates g p g.base k hash hn 0 0 k₃ s (.ok h)) {n' : Nat} {hash' : N → Nat} {hn' : 0 < n'} {k₃' : Nat} {s' : Job n' N V L}
    (hr' : Mutates g p g.base k hash' hn' 0 0 k₃' s' (.ok h')) : Agree h h' :=
  IsMutated.unique (Val := Directly k p g) (hg.mutual p) (fun _ _ _ _ _ h1 h2 => directly_unique h1 h2) (C84_simultaneous hg hk hr).1 (C84_simultaneous hg hk hr').1

/-- C85: the nodes and the edges stay what they are, but for labels, and both ends of an edge have the same label, whatever the kernel and
the plan are. -/
theorem C85_shape (hg : Full g) {h : Gr N V L} (hr : Mutates g p b k hash hn 0 0 k₃ s (.ok h)) :
    h.nodes = g.nodes ∧ h.base = g.base ∧ (∀ m, (h.out m).map Prod.snd = (g.out m).map Prod.snd ∧ (h.inn m).map Prod.snd = (g.inn m).map Prod.snd) ∧
    (∀ m ∈ g.nodes, m ∉ s.log → h.vertex m = g.vertex m ∧ after p h m = after p g m) ∧
    (∀ m ∈ g.nodes, before p h m = arriving k p g (· ∈ s.log) (after p h) m) ∧ s.log.Nodup ∧
    (p.unordered = false → ∀ m ∈ s.log, ¬ Omitted g p b (fun m => Build.lane hn (hash m)) m) := by
  obtain ⟨reach, ha, y, hy, hyd, hy0, z, hz, hzd, rfl, ho⟩ := hr
  obtain ⟨he, rfl⟩ := outcome_ok ho
  obtain ⟨h1, h2, -⟩ := ended_any hg.wf (hg.mutual p) ha hy hyd hy0 hz hzd he
  have hs := (base_reach (bereft_closed hg.wf hg.inn hy hyd) (bereft_base y.g) _ (Rover.done_bag hn hz hzd)).shape
  have hout := (bounding_done hg.wf hy hyd hy0).1.same
  refine ⟨rfl, rfl, fun m => ?_, fun m hm hl => h1.mutated.kept m hm hl, h1.mutated.matched, h1.nodup, fun hord m hm ho' => h2 m hm ⟨hord, ho'⟩⟩
  have hpre := hs.pre m
  have hpost := hs.post m
  unfold Job.pre prior before at hpre
  unfold Job.post after at hpost
  have hf := forward_iff p
  by_cases c : p.backwards = p.remoteFirst
  · simp only [if_pos c, hf.2 c, if_true, bereft, hout] at hpre hpost
    exact ⟨hpost, hpre⟩
  · have hff : ¬ p.forward = true := fun h => c (hf.1 h)
    simp only [if_neg c, hff, if_false, bereft, hout] at hpre hpost
    exact ⟨hpre, hpost⟩

/-- C86: if there are cycles, then a mutation in a constrained order ends without an error, and leaves out vertices from which a cycle can be
reached by going back to what's before them. -/
theorem C86_cyclic (hg : Full g) (hk : k.Sequential p) (hord : p.unordered = false) {h : Gr N V L} (hr : Mutates g p g.base k hash hn 0 0 k₃ s (.ok h))
    {m c : N} (hm : m ∈ g.nodes) (hmc : Reaches (prior p g) m c) (hc : Relation.TransGen (fun x y => y ∈ prior p g x) c c) :
    h.vertex m = g.vertex m ∧ after p h m = after p g m ∧ m ∉ s.log := by
  obtain ⟨h1, h2, h3, h4⟩ := mutates_order hg hk hord hr
  have hno : ¬ Turn (prior p g) (Omitted g p g.base fun m => Build.lane hn (hash m)) m := by
    rw [turn_acc fun t _ => omitted_base t _]
    intro ha
    have hac : Acc (fun t m => t ∈ prior p g m) c := by
      clear hc
      induction hmc with
      | refl => exact ha
      | tail _ hxy ih => exact ih.inv hxy
    have hirr : ∀ x, Acc (fun t m => t ∈ prior p g m) x → ¬ Relation.TransGen (fun x y => y ∈ prior p g x) x x := by
      intro x hx
      have hx' : Acc (Relation.TransGen fun t m => t ∈ prior p g m) x := hx.transGen
      intro hcyc
      have hcyc' : Relation.TransGen (fun t m => t ∈ prior p g m) x x := by
        have := Relation.transGen_swap.2 hcyc
        exact this
      induction hx' with
      | intro x _ ih => exact ih x hcyc' (hx) hcyc hcyc'
    exact hirr c hac hc
  exact ⟨(h1.kept m hm hno).1, (h1.kept m hm hno).2, fun hl => hno ((h3 m).1 hl).2⟩

/-- C87: a kill during the traversal that finds out where to start makes vertices lose their outgoing edges, without an error, if there are
enough of them. -/
theorem C87_kill_lost (hg : Full g) (hloop : ∀ m, m ∉ g.next false m) (hok : ∀ e, ¬ Raised k e) (p : Plan) (hash : N → Nat) (hn : 0 < n)
    {ms : List N} (hd : ms.Nodup) (hms : ∀ m ∈ ms, m ∈ g.nodes ∧ g.out m ≠ []) (hl : 31 * n < ms.length) :
    ∃ s k₂ h, k₂ ≠ 0 ∧ Mutates g p g.base k hash hn 0 k₂ 0 s (.ok h) ∧ ∃ m ∈ g.nodes, g.out m ≠ [] ∧ h.out m = [] := by
  have ha : Analyzed g p g.base hash hn 0 (fun _ => none) := by
    unfold Analyzed
    split
    · rfl
    · exact .inl ⟨rfl, rfl⟩
  have h1 : Reach (boundingTask k p g.inn (fun _ => none) hash hn) g.base (Bounds.start g.out)
      { init (Bounds.start g.out : Bounds n N L) with g := { (Bounds.start g.out : Bounds n N L) with killed := 1 } } :=
    .step (.env ()) trivial .init rfl
  obtain ⟨y, hy, hyd, hsp⟩ := exists_done_from hn (bounding_acc (k := k) (p := p) (hash := hash) (hn := hn) (reach := fun _ => none) hg.wf) Spare
    (fun i s m h => spare_handle i s m h) _ h1 ⟨Nat.one_ne_zero, fun i => ⟨Nat.zero_le _, Nat.zero_le _, fun _ => Nat.zero_le _⟩⟩
  obtain ⟨z, hz, hzd⟩ := exists_done hn (task_acc (k := k) (p := p) (hash := hash) (hn := hn) (bereft_closed hg.wf hg.inn hy hyd) (bereft_base y.g)) _ .init
  have hs := (base_reach (bereft_closed hg.wf hg.inn hy hyd) (bereft_base y.g) _ (Rover.done_bag hn hz hzd)).shape
  have he : ∀ i, z.g.err i = 0 := fun i => by
    by_contra hne
    exact hok _ (hs.err i hne)
  refine ⟨z.g, y.g.killed, ⟨g.nodes, g.base, z.g.vertex, z.g.out, z.g.inn⟩, hsp.1, ⟨_, ha, y, hy, hyd, rfl, z, hz, hzd, rfl, .inr ⟨he, by simp⟩⟩, ?_⟩
  have hb := Rover.done_bag hn hy hyd
  have hi := Rover.inv_reach (W := bounder g.out k p g.inn (fun _ => none) hash hn) (a := g.base) (fun i => rfl) (fun m _ => rfl) rfl _ hb
  obtain ⟨m, hm, hmn⟩ := Trav.one_unvisited (seen := fun i => (y.g.seen i).filter fun m => !(y.g.out m).isEmpty) (fun i => (hsp.2 i).2.1) hd hl
  refine ⟨m, (hms m hm).1, (hms m hm).2, ?_⟩
  have hv := (Rover.visited_iff hi (fun i => .inl fun m hm => hloop m hm) m).2 ((hg.wf.reach m).1 (hms m hm).1)
  obtain ⟨i, hiv⟩ := Rover.mem_visited.1 hv
  have hnil : y.g.out m = [] := by
    by_contra hne
    exact hmn i (List.mem_filter.2 ⟨hiv, by simpa using hne⟩)
  have hpre := hs.pre m
  have hpost := hs.post m
  unfold Job.pre prior before at hpre
  unfold Job.post after at hpost
  have hf := forward_iff p
  have : (z.g.out m).map Prod.snd = [] := by
    by_cases c : p.backwards = p.remoteFirst
    · simp only [if_pos c, hf.2 c, if_true, bereft, hnil] at hpost
      exact hpost
    · have hff : ¬ p.forward = true := fun h => c (hf.1 h)
      simp only [if_neg c, hff, if_false, bereft, hnil] at hpre
      exact hpre
  exact List.map_eq_nil_iff.1 this

/-! ## Concrete cases -/

/-- Two ways from 0 to 3. -/
def kite : Gr Nat Nat Bool where
  nodes := List.range 4
  base := 0
  vertex m := m
  out m := if m = 0 then [(false, 1), (true, 2)] else if m = 1 then [(true, 3)] else if m = 2 then [(false, 3)] else []
  inn m := if m = 1 then [(false, 0)] else if m = 2 then [(true, 0)] else if m = 3 then [(false, 2), (true, 1)] else []

theorem kite_full : Full kite :=
  ⟨wf_range (k := 4) rfl rfl (by decide) (by decide) (by decide), by unfold Gr.Duplex; decide, by decide⟩

theorem kite_acyclic (b : Nat) : Induce.Acyclic (kite.next false) b := by
  refine Induce.acyclic_of_lt (fun m t ht => ?_) b
  simp only [Gr.next, kite, Bool.false_eq_true, if_false] at ht
  split at ht
  · rename_i h; subst h; simp at ht; omega
  · split at ht
    · rename_i h; subst h; simp at ht; omega
    · split at ht
      · rename_i h; subst h; simp at ht; omega
      · cases ht

/-- Add up the vertices before a vertex, and relabel the edges after it according to the parities of both ends. -/
def adder : Kernel Nat Bool :=
  ⟨some fun v ins outs => .ok (v + 1 + ((ins ++ outs).map Prod.snd).sum), false, false, some fun v l w => .ok (l == decide ((v + w) % 2 = 0))⟩

theorem adder_ok (e : Int) : ¬ Raised adder e := by
  rintro (⟨f, v, ins, outs, x, h1, h2, -⟩ | ⟨f, v, l, w, x, h1, h2, -⟩)
  · injection h1 with h1; subst h1; cases h2
  · injection h1 with h1; subst h1; cases h2

theorem adder_sequential (p : Plan) : adder.Sequential p := ⟨by simp [adder], .inl (by simp [adder])⟩

/-- Non-vacuity of C20, forward and backwards, with any number of lanes. -/
example (lf bw : Bool) (hn : 0 < n) : ∃ s h, Mutates kite ⟨bw, lf, !lf⟩ 0 adder id hn 0 0 0 s (.ok h) ∧ s.log.Perm [0, 1, 2, 3] ∧
    Becomes adder ⟨bw, lf, !lf⟩ kite (fun _ => True) 3 (h.vertex 3) (after ⟨bw, lf, !lf⟩ h 3) := by
  obtain ⟨s, h, hr⟩ := C20_exists (b := 0) kite_full (by decide) adder_ok ⟨bw, lf, !lf⟩ id hn
  have h1 := C20_order (g := kite) kite_full (kite_acyclic _) (adder_sequential _) (by cases lf <;> rfl) hr
  exact ⟨s, h, hr, h1.2.1, h1.1.mutated 3 (by decide) trivial⟩

/-- Non-vacuity of C21: a zone with a vertex other than the base vertex, and `remote_first`. -/
example : ∃ (s : Job 1 Nat Nat Bool) (h : Gr Nat Nat Bool), Mutates kite ⟨false, false, true⟩ 1 adder id Nat.one_pos 0 0 0 s (.ok h) ∧
    1 ∈ s.log ∧ 2 ∉ s.log ∧ h.vertex 2 = 2 := by
  obtain ⟨s, h, hr⟩ := C20_exists (n := 1) (b := 1) kite_full (by decide) adder_ok ⟨false, false, true⟩ id Nat.one_pos
  obtain ⟨h1, h2, -⟩ := C21_remote_first kite_full (by decide) (by decide) (kite_acyclic _) rfl (adder_sequential _) hr
  have h3 := h2 2 (by decide) (fun hz => by
    rcases Relation.ReflTransGen.cases_head hz with h | ⟨t, h4, h5⟩
    · cases h
    · have : t = 3 := by simpa [Gr.next, kite] using h4
      subst this
      rcases Relation.ReflTransGen.cases_head h5 with h | ⟨t, h4, h5⟩
      · cases h
      · simp [Gr.next, kite] at h4) ⟨1, .refl, Subsingleton.elim _ _⟩
  exact ⟨s, h, hr, (h1 1 .refl).2.2, h3.2.2, h3.1⟩

/-- Non-vacuity of C21: with `local_first` instead, nothing happens. -/
example : ∃ (s : Job 1 Nat Nat Bool) (h : Gr Nat Nat Bool), Mutates kite ⟨false, true, false⟩ 1 adder id Nat.one_pos 0 0 0 s (.ok h) ∧ s.log = [] := by
  obtain ⟨s, h, hr⟩ := C20_exists (n := 1) (b := 1) kite_full (by decide) adder_ok ⟨false, true, false⟩ id Nat.one_pos
  exact ⟨s, h, hr, (C21_stall kite_full (by decide) (by decide) rfl (adder_sequential _) (fun m _ => ⟨1, .refl, Subsingleton.elim _ _⟩) hr).1⟩

/-- A vertex with edges to two others. -/
def fork : Gr Nat Nat Bool where
  nodes := List.range 3
  base := 0
  vertex m := m
  out m := if m = 0 then [(false, 1), (true, 2)] else []
  inn m := if m = 1 then [(false, 0)] else if m = 2 then [(true, 0)] else []

theorem fork_full : Full fork :=
  ⟨wf_range (k := 3) rfl rfl (by decide) (by decide) (by decide), by unfold Gr.Duplex; decide, by decide⟩

/-- Non-vacuity of C21: the zone is just the vertex 1, but 2 is mutated too, if it's on another lane. -/
example : ∃ (s : Job 2 Nat Nat Bool) (h : Gr Nat Nat Bool), Mutates fork ⟨false, false, true⟩ 1 adder id Nat.two_pos 0 0 0 s (.ok h) ∧
    ¬ Zone fork ⟨false, false, true⟩ 1 2 ∧ 2 ∈ s.log := by
  obtain ⟨s, h, hr⟩ := C20_exists (n := 2) (b := 1) fork_full (by decide) adder_ok ⟨false, false, true⟩ id Nat.two_pos
  have h1 := C21_escape fork_full (adder_sequential _) rfl hr (m := 2) (by decide) (fun t ht => by
    rcases Relation.ReflTransGen.cases_head ht with h | ⟨t, h4, h5⟩
    · subst h; decide
    · simp [Gr.next, fork] at h4) rfl
  exact ⟨s, h, hr, h1.1, h1.2.1⟩

/-- Two vertices with edges to each other, and one with edges to and from the first one. -/
def loop : Gr Nat Nat Bool where
  nodes := List.range 3
  base := 0
  vertex m := m
  out m := if m = 0 then [(false, 1)] else if m = 1 then [(true, 0), (true, 2)] else []
  inn m := if m = 1 then [(false, 0)] else if m = 0 then [(true, 1)] else if m = 2 then [(true, 1)] else []

theorem loop_full : Full loop :=
  ⟨wf_range (k := 3) rfl rfl (by decide) (by decide) (by decide), by unfold Gr.Duplex; decide, by decide⟩

/-- Change vertices only, depending on labels. -/
def counter : Kernel Nat Bool := ⟨some fun v ins outs => .ok (v + ins.length + (outs.map Prod.fst).count true), false, false, none⟩

theorem counter_ok (e : Int) : ¬ Raised counter e := by
  rintro (⟨f, v, ins, outs, x, h1, h2, -⟩ | ⟨f, v, l, w, x, h1, h2, -⟩)
  · injection h1 with h1; subst h1; cases h2
  · cases h1

theorem counter_unconstrained : counter.Unconstrained := by
  refine .inr ⟨rfl, fun f hf v ins outs ins' outs' h1 h2 => ?_⟩
  injection hf with hf
  subst hf
  have h3 : ins.length = ins'.length := by simpa using congrArg List.length h1
  dsimp only
  rw [h2, h3]

/-- Non-vacuity of C84 and C21: a cyclic graph is mutated in no particular order, and it doesn't matter what the initial vertex is. -/
example (hn : 0 < n) : ∃ s h, Mutates loop ⟨false, false, false⟩ 2 counter id hn 0 0 0 s (.ok h) ∧ h.vertex 1 = 4 := by
  obtain ⟨s, h, hr⟩ := C20_exists (b := 2) loop_full (by decide) counter_ok ⟨false, false, false⟩ id hn
  have h1 := (C21_ignored loop_full rfl counter_unconstrained hr).1.mutated 1 (by decide) trivial
  refine ⟨s, h, hr, ?_⟩
  have h2 : (Except.ok (1 + 1 + 2) : Except Failure Nat) = .ok (h.vertex 1) := h1.1
  injection h2 with h2
  exact h2.symm

/-- Non-vacuity of C84. -/
example (hn : 0 < n) : ∃ s h, Mutates loop ⟨false, false, false⟩ 0 counter id hn 0 0 0 s (.ok h) ∧ s.log.Perm [0, 1, 2] := by
  obtain ⟨s, h, hr⟩ := C20_exists (b := 0) loop_full (by decide) counter_ok ⟨false, false, false⟩ id hn
  exact ⟨s, h, hr, (C84_simultaneous (g := loop) loop_full (.inl ⟨rfl, counter_unconstrained⟩) hr).2⟩

/-- Non-vacuity of C86: nothing gets mutated if the base vertex is on a cycle. -/
example (hn : 0 < n) : ∃ s h, Mutates loop ⟨false, true, false⟩ 0 adder id hn 0 0 0 s (.ok h) ∧ h.vertex 2 = 2 ∧ 2 ∉ s.log := by
  obtain ⟨s, h, hr⟩ := C20_exists (b := 0) loop_full (by decide) adder_ok ⟨false, true, false⟩ id hn
  have h1 := C86_cyclic (g := loop) loop_full (adder_sequential _) rfl hr (m := 2) (c := 1) (by decide) (.single (by decide))
    (.tail (.single (show 0 ∈ prior _ loop 1 by decide)) (by decide))
  exact ⟨s, h, hr, h1.1, h1.2.2⟩

/-- A path. -/
def path (k : Nat) : Gr Nat Nat Bool where
  nodes := List.range (k + 1)
  base := 0
  vertex m := m
  out m := if m < k then [(true, m + 1)] else []
  inn m := if m = 0 ∨ k < m then [] else [(true, m - 1)]

theorem path_full (k : Nat) : Full (path k) := by
  refine ⟨wf_range (k := k + 1) rfl rfl (by omega) (fun m hm e he => ?_) (fun m hm h0 => ?_), fun a ha b hb l => ?_, fun m hm e he => ?_⟩
  · simp only [path] at he
    split at he
    · simp at he; subst he; simp; omega
    · cases he
  · refine ⟨m - 1, by omega, (true, m - 1 + 1), ?_, by simp; omega⟩
    simp only [path]
    rw [if_pos (by omega)]
    simp
  · simp only [path, List.mem_range] at ha hb ⊢
    by_cases c : l = true ∧ b = a + 1
    · obtain ⟨rfl, rfl⟩ := c
      rw [if_pos (by omega), if_neg (by omega)]
      simp
    · have h1 : ∀ es : List (Bool × Nat), es = [] ∨ es = [(true, a + 1)] → es.count (l, b) = 0 := by
        rintro es (rfl | rfl)
        · rfl
        · rw [List.count_eq_zero]; simp; tauto
      have h2 : ∀ es : List (Bool × Nat), es = [] ∨ (b ≠ 0 ∧ es = [(true, b - 1)]) → es.count (l, a) = 0 := by
        rintro es (rfl | ⟨hb0, rfl⟩)
        · rfl
        · rw [List.count_eq_zero]; simp
          intro hl e
          exact c ⟨hl, by omega⟩
      rw [h1, h2]
      · split
        · exact .inl rfl
        · exact .inr ⟨by omega, rfl⟩
      · split
        · exact .inr rfl
        · exact .inl rfl
  · simp only [path] at he
    split at he
    · cases he
    · simp at he; subst he; simp [path] at hm ⊢; omega

/-- Non-vacuity of C87: a path of 32 edges, and one lane. -/
example : ∃ (s : Job 1 Nat Nat Bool) (k₂ : Nat) (h : Gr Nat Nat Bool), k₂ ≠ 0 ∧ Mutates (path 32) ⟨false, true, false⟩ 0 adder id Nat.one_pos 0 k₂ 0 s (.ok h) ∧
    ∃ m ∈ (path 32).nodes, (path 32).out m ≠ [] ∧ h.out m = [] :=
  C87_kill_lost (path_full 32) (fun m hm => by simp only [Gr.next, path, Bool.false_eq_true, if_false] at hm; split at hm <;> simp at hm)
    adder_ok ⟨false, true, false⟩ id Nat.one_pos (ms := List.range 32) List.nodup_range
    (fun m hm => ⟨by simp [path] at hm ⊢; omega, by simp only [path]; rw [if_pos (by simpa using hm)]; simp⟩) (by simp)

/-- Add up the vertices after a vertex. -/
def peeker : Kernel Nat Bool := ⟨some fun v _ outs => .ok (v + 10 + (outs.map Prod.snd).sum), true, false, none⟩

/-- The traversals of `path 1` with one lane, and with two. -/
def bounded1 : State 1 Nat (Bounds 1 Nat Bool) :=
  greedy (boundingTask peeker ⟨false, true, false⟩ (path 1).inn (fun _ => none) id Nat.one_pos) 0 200 (init (Bounds.start (path 1).out))

def mutated1 : State 1 (Packet 1 Nat) (Job 1 Nat Nat Bool) :=
  greedy (task peeker ⟨false, true, false⟩ bounded1.g.survivors id Nat.one_pos) (.ping ⟨0, Nat.one_pos⟩) 200 (init (start (path 1) bounded1.g))

def bounded2 : State 2 Nat (Bounds 2 Nat Bool) :=
  greedy (boundingTask peeker ⟨false, true, false⟩ (path 1).inn (fun _ => none) id Nat.two_pos) 0 60 (init (Bounds.start (path 1).out))

def mutated2 : State 2 (Packet 2 Nat) (Job 2 Nat Nat Bool) :=
  greedy (task peeker ⟨false, true, false⟩ bounded2.g.survivors id Nat.two_pos) (.ping ⟨0, Nat.two_pos⟩) 60 (init (start (path 1) bounded2.g))

/-- C88: if a mutation in a constrained order depends only on the side that comes later, which is supposed to be still unmodified, then the
result depends on the number of lanes.  Here it's the path from 0 to 1, and 0 is supposed to become 11. -/
theorem C88_modified : ∃ (s : Job 1 Nat Nat Bool) (s' : Job 2 Nat Nat Bool) (h h' : Gr Nat Nat Bool),
    Mutates (path 1) ⟨false, true, false⟩ 0 peeker id Nat.one_pos 0 0 0 s (.ok h) ∧
    Mutates (path 1) ⟨false, true, false⟩ 0 peeker id Nat.two_pos 0 0 0 s' (.ok h') ∧
    h.vertex 0 = 21 ∧ h'.vertex 0 = 11 ∧ (∃ es, Becomes peeker ⟨false, true, false⟩ (path 1) (fun _ => True) 0 11 es) ∧
    ¬ ∃ es, Becomes peeker ⟨false, true, false⟩ (path 1) (fun _ => True) 0 21 es := by
  have hb : Becomes peeker ⟨false, true, false⟩ (path 1) (fun _ => True) 0 11 [(true, 1)] :=
    .intro (fun _ => 0) (fun _ => []) (fun t ht => by simp [prior, before, path] at ht) (fun t _ h => absurd trivial h) rfl rfl
  refine ⟨mutated1.g, mutated2.g, ⟨_, _, mutated1.g.vertex, mutated1.g.out, mutated1.g.inn⟩, ⟨_, _, mutated2.g.vertex, mutated2.g.out, mutated2.g.inn⟩,
    ⟨fun _ => none, .inl ⟨rfl, rfl⟩, bounded1, greedy_reach _ _ .init, by decide +kernel, by decide +kernel, mutated1, greedy_reach _ _ .init, by decide +kernel, rfl,
      .inr ⟨by decide +kernel, rfl⟩⟩,
    ⟨fun _ => none, .inl ⟨rfl, rfl⟩, bounded2, greedy_reach _ _ .init, by decide +kernel, by decide +kernel, mutated2, greedy_reach _ _ .init, by decide +kernel, rfl,
      .inr ⟨by decide +kernel, rfl⟩⟩,
    by show mutated1.g.vertex 0 = 21; decide +kernel, by show mutated2.g.vertex 0 = 11; decide +kernel, ⟨_, hb⟩, fun ⟨es, he⟩ => ?_⟩
  have := (hb.unique he).1
  cases this

end Cru.Mutate
