import Verif.Spec.MapReduce
import Verif.Proofs.Walk
import Verif.Props.Count
import Verif.Proofs.Fold
import Mathlib.Data.Multiset.Fold

/-! # C18, C57, C61: map-reduction -/

namespace Cru.MapReduce

open Net Fold

variable {n : Nat} {N V L X : Type} {o : Ops N X} {g : Gr N V L} {bw : Bool} {hash : N → Nat}

/-! ## What a visit does -/

/-- The cases of handling a packet, after the kill flag is polled. -/
inductive Visit (o : Ops N X) (i : Fin n) (s : Job n N X) (m : N) : Job n N X → Prop
  | first (h : s.result i = none) : Visit o i s m
      { callMap o i s m (o.map s.clock m) with
        result := Function.update s.result i (some ⟨mapped (o.map s.clock m), (o.map s.clock m).ux⟩) }
  | mapFails (q) (h : s.result i = some q) (hr : (o.map s.clock m).ux ≠ 0) : Visit o i s m
      { callMap o i s m (o.map s.clock m) with
        err := Function.update s.err i (o.map s.clock m).ux
        result := Function.update s.result i (some { q with value := none })
        freed := (callMap o i s m (o.map s.clock m)).freed + o.own q.value }
  | both (q) (h : s.result i = some q) (hr : (o.map s.clock m).ux = 0) : Visit o i s m
      { callMap o i s m (o.map s.clock m) with
        clock := s.clock + 2
        log := Function.update s.log i (s.log i ++ [.map m (o.map s.clock m),
          .reduce (o.map s.clock m).val q.value (o.red (s.clock + 1) (o.map s.clock m).val q.value)])
        made := s.made + o.own (o.map s.clock m).val + o.own (o.red (s.clock + 1) (o.map s.clock m).val q.value).val
        freed := s.freed + o.own (o.map s.clock m).val + o.own q.value
        err := Function.update s.err i (o.red (s.clock + 1) (o.map s.clock m).val q.value).ux
        result := Function.update s.result i (some { q with value := (o.red (s.clock + 1) (o.map s.clock m).val q.value).val }) }

theorem visit_cases (i : Fin n) (s : Job n N X) (m : N) : Visit o i s m (visit o i s m) := by
  unfold visit
  simp only [callMap]
  rcases h : s.result i with _ | q
  · exact .first h
  · by_cases hr : (o.map s.clock m).ux = 0
    · have := Visit.both (o := o) q h hr
      simpa [callMap, mapped, hr, Function.update_idem, add_assoc, List.append_assoc] using this
    · have := Visit.mapFails (o := o) q h hr
      simpa [callMap, hr] using this

theorem poll_eq (s : Job n N X) (i : Fin n) : ∃ sample stop, poll s i = { s with sample := sample, stop := stop } ∧
    (∀ j, j ≠ i → stop j = s.stop j) ∧ (stop i = false → s.stop i = false) ∧
    (stop i = true → s.stop i = true ∨ s.killed ≠ 0) := by
  unfold poll
  by_cases h : s.stop i = true
  · rw [if_pos h]; exact ⟨s.sample, s.stop, rfl, fun _ _ => rfl, id, .inl⟩
  · rw [if_neg h]
    refine ⟨_, _, rfl, fun j hj => Function.update_of_ne hj _ _, fun _ => by simpa using h, fun h' => .inr ?_⟩
    simp at h'
    exact h'.2

/-- Induction over the states of the bag machine, in terms of visits. -/
theorem bag_induct [DecidableEq N] {hn : 0 < n} {a : N} {motive : Job n N X → Prop} (h0 : motive start)
    (hk : ∀ s, motive s → motive { s with killed := 1 })
    (hp : ∀ s i sample stop, (∀ j, j ≠ i → stop j = s.stop j) → (stop i = false → s.stop i = false) →
      (stop i = true → s.stop i = true ∨ s.killed ≠ 0) → motive s → motive { s with sample := sample, stop := stop })
    (hv : ∀ s i m s', motive s → s.err i = 0 → s.stop i = false → m ∉ s.seen i →
      Visit o i { s with seen := Function.update s.seen i (s.seen i ++ [m]) } m s' → motive s') :
    ∀ x, Bag.Reach (task o g bw hash hn) a start x → motive x.1 := by
  intro x hx
  induction hx with
  | init => exact h0
  | step hr hs ih =>
    cases hs with
    | env e s m => exact hk _ ih
    | handle s m rest =>
      simp only [task, handle]
      generalize Build.lane hn (hash m) = i
      obtain ⟨sample, stop, e, h1, h2, h3⟩ := poll_eq s i
      have hm := hp s i sample stop h1 h2 h3 ih
      rw [← e] at hm
      split_ifs with c1 c2
      · exact hm
      · exact hm
      · rw [not_or] at c1
        exact hv _ i m _ hm (not_not.1 c1.1) (by simpa using c1.2) c2 (visit_cases i _ m)

theorem visit_seen {i : Fin n} {s s' : Job n N X} {m : N} (h : Visit o i s m s') : s'.seen = s.seen := by
  cases h <;> rfl

theorem visit_stop {i : Fin n} {s s' : Job n N X} {m : N} (h : Visit o i s m s') : s'.stop = s.stop ∧ s'.killed = s.killed := by
  cases h <;> exact ⟨rfl, rfl⟩

theorem visit_err {i : Fin n} {s s' : Job n N X} {m : N} (h : Visit o i s m s') : ∀ j, j ≠ i → s'.err j = s.err j := by
  intro j hj
  cases h <;> simp [callMap, Function.update_of_ne hj]

/-- Map-reduction is a traversal. -/
def walker [DecidableEq N] (o : Ops N X) (g : Gr N V L) (bw : Bool) (hash : N → Nat) (hn : 0 < n) :
    Walker (task o g bw hash hn) (g.next bw) where
  node m := m
  lane m := Build.lane hn (hash m)
  seen s := s.seen
  ok s i := s.err i = 0 ∧ s.stop i = false
  dest _ := rfl
  others s m j hj := by
    have hj' : j ≠ Build.lane hn (hash m) := hj
    simp only [task, handle]
    generalize Build.lane hn (hash m) = i at *
    obtain ⟨sample, stop, e, h1, h2, h3⟩ := poll_eq s i
    rw [e]
    split_ifs
    · exact ⟨rfl, fun h => ⟨h.1, by rw [← h1 j hj']; exact h.2⟩⟩
    · exact ⟨rfl, fun h => ⟨h.1, by rw [← h1 j hj']; exact h.2⟩⟩
    · have hv := visit_cases (o := o) i { s with sample := sample, stop := stop, seen := Function.update s.seen i (s.seen i ++ [m]) } m
      rw [visit_seen hv, visit_err hv j hj', (visit_stop hv).1]
      simp only
      exact ⟨Function.update_of_ne hj' _ _, fun h => ⟨h.1, by rw [← h1 j hj']; exact h.2⟩⟩
  undeferred s m := by
    simp only [task, handle]
    split_ifs <;> rfl
  step s m := by
    simp only [task, handle]
    generalize Build.lane hn (hash m) = i
    obtain ⟨sample, stop, e, h1, h2, h3⟩ := poll_eq s i
    rw [e]
    split_ifs with c1 c2
    · refine .inl ⟨rfl, rfl, fun h => ?_⟩
      rcases c1 with c1 | c1
      · exact absurd h.1 c1
      · rw [h.2] at c1; cases c1
    · exact .inl ⟨rfl, rfl, fun h => ⟨⟨h.1, h2 h.2⟩, c2⟩⟩
    · rw [not_or] at c1
      have hv := visit_cases (o := o) i { s with sample := sample, stop := stop, seen := Function.update s.seen i (s.seen i ++ [m]) } m
      refine .inr ⟨c2, ?_, fun q hq => hq, fun _ => ⟨⟨not_not.1 c1.1, h2 (by simpa using c1.2)⟩, fun q hq => ⟨q, hq, rfl⟩⟩⟩
      rw [visit_seen hv]; simp
  env e s := ⟨rfl, fun i h => h⟩

/-! ## C18: the value -/

section Value

variable {Y : Type} {op : Y → Y → Y}

/-- The operator with an identity added. -/
def opt (op : Y → Y → Y) : Option Y → Option Y → Option Y
  | none, y => y
  | x, none => x
  | some x, some y => some (op x y)

theorem opt_comm (hc : ∀ x y, op x y = op y x) (x y : Option Y) : opt op x y = opt op y x := by
  cases x <;> cases y <;> simp [opt, hc]

theorem opt_assoc (ha : ∀ x y z, op (op x y) z = op x (op y z)) (x y z : Option Y) :
    opt op (opt op x y) z = opt op x (opt op y z) := by
  cases x <;> cases y <;> cases z <;> simp [opt, ha]

theorem opt_none (x : Option Y) : opt op x none = x := by cases x <;> rfl

/-- The total of a list. -/
def tot (op : Y → Y → Y) (l : List (Option Y)) : Option Y := l.foldr (opt op) none

theorem tot_append (ha : ∀ x y z, op (op x y) z = op x (op y z)) (l l' : List (Option Y)) :
    tot op (l ++ l') = opt op (tot op l) (tot op l') := by
  induction l with
  | nil => simp [tot, opt]
  | cons a l ih =>
    have : tot op (a :: l ++ l') = opt op a (tot op (l ++ l')) := rfl
    rw [this, ih, ← opt_assoc ha]
    rfl

theorem tot_perm (hc : ∀ x y, op x y = op y x) (ha : ∀ x y z, op (op x y) z = op x (op y z)) {l l' : List (Option Y)}
    (h : l.Perm l') : tot op l = tot op l' := by
  induction h with
  | nil => rfl
  | cons x _ ih => exact congrArg (opt op x) ih
  | swap x y l =>
    change opt op y (opt op x (tot op l)) = opt op x (opt op y (tot op l))
    rw [← opt_assoc ha, opt_comm hc y x, opt_assoc ha]
  | trans _ _ ih1 ih2 => exact ih1.trans ih2

theorem combined_eq (hc : ∀ x y, op x y = op y x) (ha : ∀ x y z, op (op x y) z = op x (op y z)) (l : List Y) :
    combined op l = tot op (l.map some) := by
  cases l with
  | nil => rfl
  | cons y ys =>
    have : ∀ (ys : List Y) (y : Y), some (ys.foldl (fun acc z => op z acc) y) = opt op (some y) (tot op (ys.map some)) := by
      intro ys
      induction ys with
      | nil => intro y; rfl
      | cons z zs ih =>
        intro y
        rw [List.foldl_cons, ih]
        change _ = opt op (some y) (opt op (some z) (tot op (zs.map some)))
        rw [← opt_assoc ha]
        simp [opt, hc]
    exact this ys y

theorem combined_snoc (l : List Y) (y : Y) : combined op (l ++ [y]) = some (match combined op l with
    | none => y
    | some x => op y x) := by
  cases l with
  | nil => rfl
  | cons x xs => simp [combined, List.foldl_append]

end Value

variable {f : N → Option X} {op : Option X → Option X → Option X}

theorem reduces_value (hp : Plain o f op) {p : Multiset (Option (Option X))} {r a b} (h : Reduces o p r a b) :
    ∀ l : List (Option (Option X)), (l : Multiset _) = p → r = tot op l := by
  induction h with
  | nothing => intro l hl; rw [Multiset.coe_eq_zero] at hl; subst hl; rfl
  | @skip s r a b _ ih =>
    intro l hl
    obtain ⟨l', rfl⟩ := Quot.exists_rep s
    have hperm : l.Perm (none :: l') := Multiset.coe_eq_coe.1 hl
    rw [tot_perm hp.comm hp.assoc hperm, ih l' rfl]
    rfl
  | last x =>
    intro l hl
    have : l = [some x] := by simpa using hl
    subst this
    simp [tot, opt]
  | @pair x y s r a b t _ _ ih =>
    intro l hl
    obtain ⟨l', rfl⟩ := Quot.exists_rep s
    have hperm : l.Perm (some x :: some y :: l') := Multiset.coe_eq_coe.1 hl
    rw [tot_perm hp.comm hp.assoc hperm, ih (some (o.red t x y).val :: l') rfl]
    change _ = opt op (some x) (opt op (some y) (tot op l'))
    rw [← opt_assoc hp.assoc, hp.red]
    rfl

theorem drains_status {p : Multiset (Option (End X))} {e a b} (h : Drains o p e a b) (hred : ∀ t x y, (o.red t x y).ux = 0) :
    ¬ ∀ q, some q ∈ p → q.status = 0 := by
  induction h with
  | raised h => intro hq; exact h (hq _ (Multiset.mem_cons_self _ _))
  | skip _ ih => intro hq; exact ih fun q h => hq q (Multiset.mem_cons_of_mem h)
  | @pair x y s e a b t _ _ _ ih =>
    intro hq
    refine ih fun q h => ?_
    rcases Multiset.mem_cons.1 h with h | h
    · injection h with h
      rw [h]
      simp only [first, hq x (Multiset.mem_cons_self _ _), hq y (Multiset.mem_cons_of_mem (Multiset.mem_cons_self _ _)), hred]
      rfl
    · exact hq q (Multiset.mem_cons_of_mem (Multiset.mem_cons_of_mem h))

theorem exit_status {s : Job n N X} {i : Fin n} {q} (h : s.exit i = some q) : q.status = s.status i := by
  unfold Job.exit at h
  unfold Job.status
  split_ifs at h ⊢ with h1 h2 h3
  · injection h with h; rw [← h]
  · injection h with h; rw [← h]
  · cases hr : s.result i with
    | none => rw [hr] at h; cases h
    | some r => rw [hr] at h; injection h with h; rw [← h]; rfl

theorem exits_mem {s : Job n N X} {q} : q ∈ s.exits ↔ ∃ i, s.exit i = q := by
  simp [Job.exits]

theorem exits_status {s : Job n N X} (h : ∀ i, s.status i = 0) : ∀ q, some q ∈ s.exits → q.status = 0 := by
  intro q hq
  obtain ⟨i, hi⟩ := exits_mem.1 hq
  rw [exit_status hi, h]

/-- With plain callbacks, a worker's result is the combination of the values of the vertices it visited. -/
theorem plain_inv [DecidableEq N] {hn : 0 < n} {a : N} (hp : Plain o f op) :
    ∀ x, Bag.Reach (task o g bw hash hn) a start x → ∀ i, x.1.err i = 0 ∧
      x.1.result i = (combined op ((x.1.seen i).map f)).map fun v => ⟨v, 0⟩ := by
  refine bag_induct (motive := fun s => ∀ i, s.err i = 0 ∧ s.result i = (combined op ((s.seen i).map f)).map fun v => ⟨v, 0⟩)
    ?_ ?_ ?_ ?_
  · intro i; exact ⟨rfl, rfl⟩
  · intro s h i; exact h i
  · intro s i sample stop _ _ _ h; exact h
  · intro s i m s' h he _ _ hv j
    have hi := (h i).2
    have hsn := combined_snoc (op := op) ((s.seen i).map f) (f m)
    by_cases hj : j = i
    · subst hj
      cases hv with
      | first h0 =>
        simp only at h0
        rw [h0] at hi
        have hn' : combined op ((s.seen j).map f) = none := by
          rcases h' : combined op ((s.seen j).map f) with _ | v
          · rfl
          · rw [h'] at hi; simp at hi
        rw [hn'] at hsn
        refine ⟨he, ?_⟩
        simp [callMap, hp.map, mapped, hsn]
      | mapFails q h0 hr => exact absurd (by simp [hp.map]) hr
      | both q h0 hr =>
        simp only at h0
        rw [h0] at hi
        obtain ⟨v, hv1, hv2⟩ := Option.map_eq_some_iff.1 hi.symm
        rw [hv1] at hsn
        subst hv2
        simp [callMap, hp.map, hp.red, hsn]
    · have hs : (Function.update s.seen i (s.seen i ++ [m])) j = s.seen j := Function.update_of_ne hj _ _
      cases hv <;> simp only [callMap, hs, Function.update_of_ne hj] <;> exact h j

/-- Workers don't stop unless killed. -/
theorem stop_inv [DecidableEq N] {hn : 0 < n} {a : N} :
    ∀ x, Bag.Reach (task o g bw hash hn) a start x → x.1.killed = 0 → ∀ i, x.1.stop i = false := by
  refine bag_induct (motive := fun s => s.killed = 0 → ∀ i, s.stop i = false) ?_ ?_ ?_ ?_
  · intro _ i; rfl
  · intro s _ h; exact absurd (show (1 : Nat) = 0 from h) (by decide)
  · intro s i sample stop h1 h2 h3 h hk j
    have hk' : s.killed = 0 := hk
    by_cases hj : j = i
    · subst hj
      by_contra hs
      rcases h3 (by simpa using hs) with h4 | h4
      · rw [h hk' j] at h4; cases h4
      · exact h4 hk'
    · rw [show ({ s with sample := sample, stop := stop } : Job n N X).stop j = stop j from rfl, h1 j hj]; exact h hk' j
  · intro s i m s' h _ _ _ hv hk j
    rw [(visit_stop hv).1]
    rw [(visit_stop hv).2] at hk
    exact h hk j

/-- **C18.** With any number of lanes, any hash function and any schedule, and however the partial results are paired, the
result of the workers is the combination of the values of all vertices in the zone, each taken once, provided the reduction
is associative and commutative, the callbacks succeed and the operation isn't killed.  If it is killed, there's an error. -/
theorem C18_concurrent [DecidableEq N] (hp : Plain o f op) {hn : 0 < n} {initial : N} {s : Job n N X}
    (hs : Ends o g bw hash hn initial s) {r a b} (hr : Outcomes o s r a b) {ms : List N} (hz : IsZone g bw initial ms) :
    (s.killed = 0 → ∃ v, combined op (ms.map f) = some v ∧ r = .ok v) ∧ (s.killed ≠ 0 → r = .error Build.intKil) := by
  obtain ⟨x, hx, hd, rfl⟩ := hs
  have hb := reach_bag hn hx
  have hi := plain_inv hp _ hb
  simp only at hi
  have hst : ∀ i, x.g.status i = 0 := by
    intro i
    rw [Job.status, if_neg (not_not.2 (hi i).1), (hi i).2]
    cases combined op ((x.g.seen i).map f) <;> rfl
  refine ⟨fun hk => ?_, fun hk => ?_⟩
  · have hstop := stop_inv _ hb hk
    have hperm := (walker o g bw hash hn).visited_perm hn (fun i => rfl) hx hd (fun i => ⟨(hi i).1, hstop i⟩) hz.nodup hz.mem
    have hpool : tot op ((List.finRange n).map x.g.returned) = combined op (ms.map f) := by
      rw [combined_eq hp.comm hp.assoc, ← tot_perm hp.comm hp.assoc ((hperm.map f).map some)]
      have hret : ∀ i, x.g.returned i = tot op (((x.g.seen i).map f).map some) := by
        intro i
        rw [← combined_eq hp.comm hp.assoc, Job.returned, if_neg (by rw [(hi i).1, hstop i]; simp), (hi i).2]
        cases combined op ((x.g.seen i).map f) <;> rfl
      unfold Walker.visited
      generalize List.finRange n = l
      induction l with
      | nil => rfl
      | cons i l ih =>
        rw [List.map_cons, List.flatMap_cons, List.map_append, List.map_append, tot_append hp.assoc, ← ih]
        change opt op (x.g.returned i) _ = _
        rw [hret]
        rfl
    have hmem : initial ∈ ms := (hz.mem _).2 .refl
    obtain ⟨v, hv⟩ : ∃ v, combined op (ms.map f) = some v := by
      cases ms with
      | nil => cases hmem
      | cons a l => exact ⟨_, rfl⟩
    refine ⟨v, hv, ?_⟩
    cases hr with
    | failed h => exact absurd (exits_status hst) (drains_status h fun t x y => by rw [hp.red])
    | kill _ _ h => exact absurd hk h
    | value _ h _ =>
      have := reduces_value hp h _ rfl
      rw [this, hpool, hv]
      rfl
  · cases hr with
    | failed h => exact absurd (exits_status hst) (drains_status h fun t x y => by rw [hp.red])
    | kill _ _ h => rfl
    | value _ _ h => exact absurd h hk


theorem exit_of_status {s : Job n N X} {i : Fin n} (h : s.status i ≠ 0) : ∃ q, s.exit i = some q := by
  unfold Job.status at h
  unfold Job.exit
  split_ifs at h ⊢ with h1 h2 h3
  · exact ⟨_, rfl⟩
  · exact ⟨_, rfl⟩
  · cases hr : s.result i with
    | none => rw [hr] at h; exact absurd rfl h
    | some r => exact ⟨_, rfl⟩

theorem exit_of_zero {s : Job n N X} {i : Fin n} (h : s.status i = 0) :
    s.exit i = (s.returned i).map fun v => ⟨v, true, 0⟩ := by
  unfold Job.status at h
  unfold Job.exit Job.returned
  by_cases h1 : s.err i ≠ 0
  · rw [if_pos h1] at h; exact absurd h h1
  · rw [if_neg h1] at h ⊢
    by_cases h2 : s.stop i = true
    · rw [if_pos h2, if_neg (not_not.2 h), if_pos (.inr h2)]; rfl
    · rw [if_neg h2, if_neg (not_or.2 ⟨h1, h2⟩)]
      cases hr : s.result i with
      | none => rfl
      | some q => rw [hr] at h; simp only [Option.map_some, Option.getD_some] at h ⊢; rw [h]

theorem drains_raised (o : Ops N X) {p : Multiset (Option (End X))} {q} (h : some q ∈ p) (hq : q.status ≠ 0) :
    ∃ a b, Drains o p q.status a b := by
  obtain ⟨s, rfl⟩ := Multiset.exists_cons_of_mem h
  exact ⟨_, _, .raised hq⟩

/-- What a worker returns without an error, as the other phase sees it. -/
def fine (q : Option (Option X)) : Option (End X) := q.map fun v => ⟨v, true, 0⟩

theorem reduces_exists (o : Ops N X) (k : Nat) : ∀ p : Multiset (Option (Option X)), p.card = k →
    (∃ r a b, Reduces o p r a b) ∨ ∃ e a b, Drains o (p.map fine) e a b := by
  induction k using Nat.strong_induction_on with
  | _ k ih =>
    intro p hp
    induction p using Multiset.induction_on with
    | empty => exact .inl ⟨_, _, _, .nothing⟩
    | cons x p _ =>
      rw [Multiset.card_cons] at hp
      cases x with
      | none =>
        rcases ih _ (by omega) p rfl with ⟨r, a, b, h⟩ | ⟨e, a, b, h⟩
        · exact .inl ⟨_, _, _, .skip h⟩
        · rw [Multiset.map_cons]; exact .inr ⟨_, _, _, .skip h⟩
      | some x =>
        induction p using Multiset.induction_on with
        | empty => exact .inl ⟨_, _, _, .last x⟩
        | cons y p _ =>
          rw [Multiset.card_cons] at hp
          cases y with
          | none =>
            rw [Multiset.cons_swap]
            rcases ih _ (by omega) (some x ::ₘ p) (Multiset.card_cons _ _) with ⟨r, a, b, h⟩ | ⟨e, a, b, h⟩
            · exact .inl ⟨_, _, _, .skip h⟩
            · rw [Multiset.map_cons]; exact .inr ⟨_, _, _, .skip h⟩
          | some y =>
            by_cases he : (o.red 0 x y).ux = 0
            · rcases ih _ (by omega) (some (o.red 0 x y).val ::ₘ p) (Multiset.card_cons _ _) with ⟨r, a, b, h⟩ | ⟨e, a, b, h⟩
              · exact .inl ⟨_, _, _, .pair 0 he h⟩
              · refine .inr ⟨e, o.own (o.red 0 x y).val + a, o.own x + o.own y + b, ?_⟩
                rw [Multiset.map_cons, Multiset.map_cons]
                refine .pair (x := ⟨x, true, 0⟩) (y := ⟨y, true, 0⟩) 0 rfl rfl ?_
                rw [Multiset.map_cons] at h
                simpa [fine, first, he] using h
            · obtain ⟨a, b, h⟩ := drains_raised o (p := some ⟨(o.red 0 x y).val, true, (o.red 0 x y).ux⟩ ::ₘ p.map fine)
                (Multiset.mem_cons_self _ _) he
              refine .inr ⟨(o.red 0 x y).ux, o.own (o.red 0 x y).val + a, o.own x + o.own y + b, ?_⟩
              rw [Multiset.map_cons, Multiset.map_cons]
              refine .pair (x := ⟨x, true, 0⟩) (y := ⟨y, true, 0⟩) 0 rfl rfl ?_
              simpa [first] using h

theorem outcomes_exists (o : Ops N X) (s : Job n N X) : ∃ r a b, Outcomes o s r a b := by
  by_cases hs : ∀ i, s.status i = 0
  · rcases reduces_exists o _ s.pool rfl with ⟨r, a, b, h⟩ | ⟨e, a, b, h⟩
    · by_cases hk : s.killed = 0
      · exact ⟨_, _, _, .value hs h hk⟩
      · exact ⟨_, _, _, .kill hs h hk⟩
    · refine ⟨.error e, s.made + a, s.freed + s.released o + b, .failed ?_⟩
      have : s.exits = s.pool.map fine := by
        rw [Job.exits, Job.pool, Multiset.map_coe, List.map_map]
        congr 1
        exact List.map_congr_left fun i _ => exit_of_zero (hs i)
      rw [this]; exact h
  · obtain ⟨i, hi⟩ := not_forall.1 hs
    obtain ⟨q, hq⟩ := exit_of_status hi
    obtain ⟨a, b, h⟩ := drains_raised o (exits_mem.2 ⟨i, hq⟩) (by rw [exit_status hq]; exact hi)
    exact ⟨_, _, _, .failed h⟩

/-- **C18.** The workers finish: no schedule goes on forever and some outcome is reached. -/
theorem C18_terminates [DecidableEq N] (o : Ops N X) (hash : N → Nat) (hn : 0 < n) {initial : N} {ms : List N}
    (hz : IsZone g bw initial ms) :
    (∀ h : Nat → State n N (Job n N X), Net.Reach (task o g bw hash hn) initial start (h 0) →
      ¬ ∀ j, step (task o g bw hash hn) initial .main (h j) = some (h (j + 1)) ∨
        ∃ i, step (task o g bw hash hn) initial (.worker i) (h j) = some (h (j + 1))) ∧
    ∃ s, Ends o g bw hash hn initial s ∧ s.killed = 0 ∧ ∃ r made freed, Outcomes o s r made freed := by
  have ha := (walker o g bw hash hn).acc (i₀ := initial) (g₀ := start) (fun i => rfl) ms (fun m hm => (hz.mem m).2 hm)
  refine ⟨fun f h0 hs => no_infinite_run hn ha f h0 hs, ?_⟩
  obtain ⟨s, hs, hd, hk⟩ := exists_done_inv hn ha (fun s => s.killed = 0) rfl (by
    intro i s m h
    simp only [task, handle]
    obtain ⟨sample, stop, e, -⟩ := poll_eq s i
    rw [e]
    split_ifs
    · exact h
    · exact h
    · exact ((visit_stop (visit_cases (o := o) i _ m)).2).trans h)
  exact ⟨s.g, ⟨s, hs, hd, rfl⟩, hk, outcomes_exists o s.g⟩

theorem mapAct_value (hp : Plain o f op) : Computes (mapAct o) f := by
  intro a w he
  have h := applied_value (fun t => o.map t a) (if o.free then some 0 else none) w (f a) (fun t => hp.map t a) he
  unfold mapAct
  simp only
  rw [if_neg (not_not.2 h.2)]
  exact h

/-- The sequential version folds the whole list of nodes, starting from the vacuous case if there is one. -/
theorem sequential_value (hp : Plain o f op) (u : Option X) (hu : ∀ z, o.vacuous = some z → ∀ t, z t = ⟨u, 0⟩) (m : N) (ms : List N) :
    (sequential o (m :: ms)).2.err = 0 ∧ (sequential o (m :: ms)).1.map Obj.val =
      if o.vacuous.isSome then ((m :: ms).map f).foldl (fun acc z => op z acc) u
      else (ms.map f).foldl (fun acc z => op z acc) (f m) := by
  have hd : ∀ n t : Nat, (fun _ _ => (0 : Int)) n t = 0 := fun _ _ => rfl
  unfold sequential foldWith
  rcases hv : o.vacuous with _ | z
  · simp only [ne_eq, not_true_eq_false, if_false, Option.isSome_none, Bool.false_eq_true]
    have h1 := mapAct_value hp m ⟨0, 0, 0, 0, false⟩ rfl
    have := foldTail_value (fun _ _ => 0) hd ⟨none, none, none, some o.red, if o.free then some 0 else none, if o.free then some 0 else none⟩
      op ⟨o.red, rfl, hp.red⟩ (mapAct o) f (mapAct_value hp) (-1281) ms (mapAct o m ⟨0, 0, 0, 0, false⟩) h1.2
    rw [h1.1] at this
    rw [List.foldl_map]
    exact ⟨this.2, this.1⟩
  · simp only [Option.isSome_some, if_true]
    have h1 := applied_value z (if o.free then some 0 else none) ⟨0, 0, 0, 0, false⟩ u (hu z hv) rfl
    have := foldTail_value (fun _ _ => 0) hd ⟨some z, none, none, some o.red, if o.free then some 0 else none, if o.free then some 0 else none⟩
      op ⟨o.red, rfl, hp.red⟩ (mapAct o) f (mapAct_value hp) (-1281) (m :: ms) _ h1.2
    rw [h1.1] at this
    rw [List.foldl_map]
    exact ⟨this.2, this.1⟩

/-- **C18** for `cru_mapreduced` with any number of lanes, in the cases where the sequential version does what the workers do:
there's no vacuous case, and the zone is the whole graph.  These two conditions aren't needed if the sequential version isn't
used (`C18_concurrent`), and the result is wrong without them if it is (`C18_vacuous_case_counts`, `C18_zone_ignored`). -/
theorem C18_returns [DecidableEq N] (hp : Plain o f op) {hn : 0 < n} {initial : N} {stored : Bool}
    (h1 : usesSequential g stored initial n = true → o.vacuous = none ∧ IsZone g bw initial g.nodes)
    {r} (hr : Returns o g bw stored hash hn initial r) {ms : List N} (hz : IsZone g bw initial ms) :
    (∃ v, combined op (ms.map f) = some v ∧ r = .ok v) ∨ r = .error Build.intKil := by
  unfold Returns at hr
  by_cases hu : usesSequential g stored initial n = true
  · rw [if_pos hu] at hr
    obtain ⟨hv, hw⟩ := h1 hu
    have hperm : ms.Perm g.nodes := (List.perm_ext_iff_of_nodup hz.nodup hw.nodup).2 fun m => by rw [hz.mem, hw.mem]
    have hc : combined op (ms.map f) = combined op (g.nodes.map f) := by
      rw [combined_eq hp.comm hp.assoc, combined_eq hp.comm hp.assoc]
      exact tot_perm hp.comm hp.assoc ((hperm.map f).map some)
    rw [hc]
    have hm : initial ∈ g.nodes := (hw.mem _).2 .refl
    rcases hl : g.nodes with _ | ⟨a, l⟩
    · rw [hl] at hm; cases hm
    · rw [hl] at hr
      have := sequential_value hp none (by rw [hv]; intro z h; cases h) a l
      rw [if_neg (not_not.2 this.1), this.2, hv] at hr
      exact .inl ⟨_, rfl, hr⟩
  · rw [if_neg hu] at hr
    obtain ⟨s, a, b, hs, ho⟩ := hr
    have := C18_concurrent hp hs ho hz
    by_cases hk : s.killed = 0
    · exact .inl (this.1 hk)
    · exact .inr (this.2 hk)

/-- What is returned when the sequential version is used with a vacuous case: the vacuous case is combined with the values of
the vertices, unlike with more lanes. -/
theorem C18_vacuous_case_counts [DecidableEq N] (hp : Plain o f op) {hn : 0 < n} {initial : N} {stored : Bool}
    (hu : usesSequential g stored initial n = true) {z} (hv : o.vacuous = some z) {u} (hz : ∀ t, z t = ⟨u, 0⟩)
    {r} (hr : Returns o g bw stored hash hn initial r) :
    ∃ v, combined op (u :: g.nodes.map f) = some v ∧ r = .ok v := by
  unfold Returns at hr
  rw [if_pos hu] at hr
  have hh : g.nodes.head? = some initial := by simp [usesSequential] at hu; exact hu.2
  rcases hl : g.nodes with _ | ⟨a, l⟩
  · rw [hl] at hh; cases hh
  · rw [hl] at hr
    have := sequential_value hp u (by rw [hv]; intro z' h t; cases h; exact hz t) a l
    rw [if_neg (not_not.2 this.1), this.2, hv] at hr
    exact ⟨_, rfl, hr⟩

/-- What is returned when the sequential version is used without a vacuous case: the combination of the whole graph, whatever
the zone. -/
theorem C18_zone_ignored [DecidableEq N] (hp : Plain o f op) {hn : 0 < n} {initial : N} {stored : Bool}
    (hu : usesSequential g stored initial n = true) (hv : o.vacuous = none)
    {r} (hr : Returns o g bw stored hash hn initial r) :
    ∃ v, combined op (g.nodes.map f) = some v ∧ r = .ok v := by
  unfold Returns at hr
  rw [if_pos hu] at hr
  have hh : g.nodes.head? = some initial := by simp [usesSequential] at hu; exact hu.2
  rcases hl : g.nodes with _ | ⟨a, l⟩
  · rw [hl] at hh; cases hh
  · rw [hl] at hr
    have := sequential_value hp none (by rw [hv]; intro z h; cases h) a l
    rw [if_neg (not_not.2 this.1), this.2, hv] at hr
    exact ⟨_, rfl, hr⟩

/-! ## C57: the operands of callbacks -/

/-- The history of a worker. -/
inductive Hist : List (Call N X) → Option (Maybe X) → Int → Prop
  | nil : Hist [] none 0
  | first (m r) : Hist [.map m r] (some ⟨mapped r, r.ux⟩) 0
  | mapFails {h q} (m r) : Hist h (some q) 0 → r.ux ≠ 0 → Hist (h ++ [.map m r]) (some ⟨none, q.status⟩) r.ux
  | both {h q} (m r v) : Hist h (some q) 0 → r.ux = 0 →
      Hist (h ++ [.map m r, .reduce r.val q.value v]) (some ⟨v.val, q.status⟩) v.ux

theorem hist_ne {h : List (Call N X)} {q e} (hh : Hist h (some q) e) : h ≠ [] := by
  generalize hq : some q = q' at hh
  cases hh with
  | nil => cases hq
  | _ => simp

theorem hist_inv [DecidableEq N] {hn : 0 < n} {a : N} :
    ∀ x, Bag.Reach (task o g bw hash hn) a start x → ∀ i, Hist (x.1.log i) (x.1.result i) (x.1.err i) := by
  refine bag_induct (motive := fun s => ∀ i, Hist (s.log i) (s.result i) (s.err i)) ?_ ?_ ?_ ?_
  · intro i; exact .nil
  · intro s h i; exact h i
  · intro s i sample stop _ _ _ h; exact h
  · intro s i m s' h he _ _ hv j
    have hi := h i
    rw [he] at hi
    by_cases hj : j = i
    · subst hj
      cases hv with
      | first h0 =>
        simp only at h0
        rw [h0] at hi
        have hl : s.log j = [] := by generalize s.log j = l at hi; cases hi; rfl
        simp only [callMap, Function.update_self, hl, he]
        exact .first _ _
      | mapFails q h0 hr =>
        simp only at h0
        rw [h0] at hi
        simp only [callMap, Function.update_self]
        exact .mapFails _ _ hi hr
      | both q h0 hr =>
        simp only at h0
        rw [h0] at hi
        simp only [callMap, Function.update_self]
        exact .both _ _ _ hi hr
    · cases hv <;> simp only [callMap, Function.update_of_ne hj] <;> exact h j

theorem hist_good {h : List (Call N X)} {q e} (hh : Hist h q e) (h1 : ∀ c ∈ h.head?, c.ux = 0) :
    (∀ q', q = some q' → e = 0 → some q'.value ∈ h.map Call.good) ∧
    (∀ l c, h = l ++ c → e = 0 → ∀ d ∈ c, d.ux = 0) ∧
    (∀ l d c, h = l ++ d :: c → c ≠ [] → d.ux = 0) ∧
    ∀ l x y v c, h = l ++ .reduce x y v :: c → some x ∈ l.map Call.good ∧ some y ∈ l.map Call.good := by
  induction hh with
  | nil =>
    refine ⟨(by intro _ h; cases h), ?_, ?_, ?_⟩
    · intro l c hl _ d hd
      have := List.append_eq_nil_iff.1 hl.symm
      rw [this.2] at hd; cases hd
    · intro l d c hl; simp at hl
    · intro l x y v c hl; simp at hl
  | first m r =>
    have hr : r.ux = 0 := h1 _ rfl
    refine ⟨?_, ?_, ?_, ?_⟩
    · intro q' hq _
      cases hq
      simp [Call.good, mapped, hr]
    · intro l c hl _ d hd
      have : d ∈ [Call.map m r] := by rw [hl]; exact List.mem_append_right _ hd
      rw [List.mem_singleton] at this
      rw [this]; exact hr
    · intro l d c hl hc
      cases l <;> simp at hl
      exact absurd hl.2.symm (by simpa using hc)
    · intro l x y v c hl
      cases l <;> simp at hl
  | @mapFails h q m r hh hr ih =>
    have hne : h ≠ [] := hist_ne hh
    have ih := ih (fun c hc => h1 c (by rw [List.head?_append]; cases h <;> simp_all))
    refine ⟨fun _ _ h0 => absurd h0 hr, fun _ _ _ h0 => absurd h0 hr, ?_, ?_⟩
    · intro l d c hl hc
      obtain ⟨c', x, rfl⟩ : ∃ c' x, c = c' ++ [x] := ⟨c.dropLast, c.getLast hc, (List.dropLast_append_getLast hc).symm⟩
      rw [← List.cons_append, ← List.append_assoc] at hl
      have := (List.append_inj' hl rfl).1
      exact ih.2.1 l (d :: c') this rfl d List.mem_cons_self
    · intro l x y v c hl
      rcases List.eq_nil_or_concat c with rfl | ⟨c', z, rfl⟩
      · have := (List.append_inj' hl rfl).2
        simp at this
      · rw [List.concat_eq_append, ← List.cons_append, ← List.append_assoc] at hl
        have := (List.append_inj' hl rfl).1
        exact ih.2.2.2 l x y v c' this
  | @both h q m r v hh hr ih =>
    have hne : h ≠ [] := hist_ne hh
    have ih := ih (fun c hc => h1 c (by rw [List.head?_append]; cases h <;> simp_all))
    have hold : ∀ d ∈ h, d.ux = 0 := ih.2.1 [] h rfl rfl
    refine ⟨?_, ?_, ?_, ?_⟩
    · intro q' hq he
      cases hq
      simp [Call.good, he]
    · intro l c hl he d hd
      have : d ∈ h ++ [.map m r, .reduce r.val q.value v] := by rw [hl]; exact List.mem_append_right _ hd
      simp only [List.mem_append, List.mem_cons, List.not_mem_nil, or_false] at this
      rcases this with h | rfl | rfl
      · exact hold _ h
      · exact hr
      · exact he
    · intro l d c hl hc
      obtain ⟨c', x, rfl⟩ : ∃ c' x, c = c' ++ [x] := ⟨c.dropLast, c.getLast hc, (List.dropLast_append_getLast hc).symm⟩
      rw [← List.cons_append, ← List.append_assoc, show h ++ [.map m r, .reduce r.val q.value v] =
        (h ++ [.map m r]) ++ [.reduce r.val q.value v] by simp] at hl
      have := (List.append_inj' hl rfl).1
      have hd : d ∈ h ++ [.map m r] := by rw [this]; simp
      simp only [List.mem_append, List.mem_singleton] at hd
      rcases hd with h | rfl
      · exact hold _ h
      · exact hr
    · intro l x y v' c hl
      rw [show h ++ [.map m r, .reduce r.val q.value v] = (h ++ [.map m r]) ++ [.reduce r.val q.value v] by simp] at hl
      rcases List.eq_nil_or_concat c with rfl | ⟨c', z, rfl⟩
      · obtain ⟨h2, h3⟩ := List.append_inj' hl rfl
        simp only [List.cons.injEq, Call.reduce.injEq, and_true] at h3
        obtain ⟨rfl, rfl, rfl⟩ := h3
        rw [← h2]
        refine ⟨by simp [Call.good, hr], ?_⟩
        rw [List.map_append]
        exact List.mem_append_left _ (ih.1 q rfl rfl)
      · rw [List.concat_eq_append, ← List.cons_append, ← List.append_assoc] at hl
        have h2 := (List.append_inj' hl rfl).1
        rcases List.eq_nil_or_concat c' with rfl | ⟨c'', z', rfl⟩
        · have := (List.append_inj' h2 rfl).2
          simp at this
        · rw [List.concat_eq_append, ← List.cons_append, ← List.append_assoc] at h2
          have := (List.append_inj' h2 rfl).1
          exact ih.2.2.2 l x y v' c'' this

/-- **C57.** At any time in any execution, if the first callback of a worker didn't fail, then both operands of each reduction
made by the worker are values returned by earlier callbacks of that worker that didn't fail, and a callback that fails is the
last.  It isn't so if the first callback of the worker fails (`C57_error_cleared`). -/
theorem C57_operands [DecidableEq N] {hn : 0 < n} {initial : N} {x : State n N (Job n N X)}
    (hx : Net.Reach (task o g bw hash hn) initial start x) (i : Fin n) (h1 : ∀ c ∈ (x.g.log i).head?, c.ux = 0) :
    (∀ l a b v c, x.g.log i = l ++ .reduce a b v :: c → some a ∈ l.map Call.good ∧ some b ∈ l.map Call.good) ∧
    ∀ l d c, x.g.log i = l ++ d :: c → d.ux ≠ 0 → c = [] := by
  have h := hist_good (hist_inv _ (reach_bag hn hx) i) h1
  refine ⟨h.2.2.2, fun l d c hl hd => ?_⟩
  by_contra hc
  exact hd (h.2.2.1 l d c hl hc)

/-- **C57, as it is.** In any execution, if the first callback of a worker fails and the worker makes another one that
succeeds, the third is a reduction with a null operand on the right. -/
theorem C57_error_cleared [DecidableEq N] {hn : 0 < n} {initial : N} {x : State n N (Job n N X)}
    (hx : Net.Reach (task o g bw hash hn) initial start x) (i : Fin n) {c d : Call N X} {l}
    (hl : x.g.log i = c :: d :: l) (hc : c.ux ≠ 0) (hd : d.ux = 0) :
    ∃ v l', l = .reduce (d.good.getD none) none v :: l' := by
  have h := hist_inv _ (reach_bag hn hx) i
  rw [hl] at h
  generalize hll : c :: d :: l = log at h
  generalize x.g.result i = q at h
  generalize x.g.err i = e at h
  have : ∀ (log : List (Call N X)) q e, Hist log q e →
      (∀ c, log = [c] → c.ux ≠ 0 → ∃ s, q = some ⟨none, s⟩) ∧
      ∀ c d l, c :: d :: l = log → c.ux ≠ 0 → d.ux = 0 → ∃ v l', l = .reduce (d.good.getD none) none v :: l' := by
    intro log q e h
    induction h with
    | nil => exact ⟨by simp, by simp⟩
    | first m r =>
      refine ⟨?_, by simp⟩
      intro c hc hu
      simp only [List.cons.injEq, and_true] at hc
      subst hc
      exact ⟨r.ux, by simp [mapped, show r.ux ≠ 0 from hu]⟩
    | @mapFails h q m r hh hr ih =>
      have hne : h ≠ [] := hist_ne hh
      refine ⟨fun c hc => ?_, fun c d l hl hc hd => ?_⟩
      · cases h <;> simp_all
      · rcases h with _ | ⟨a, _ | ⟨b, h⟩⟩
        · exact absurd rfl hne
        · simp only [List.cons_append, List.nil_append, List.cons.injEq] at hl
          obtain ⟨rfl, rfl, rfl⟩ := hl
          exact absurd hd hr
        · simp only [List.cons_append, List.cons.injEq] at hl
          obtain ⟨rfl, rfl, rfl⟩ := hl
          obtain ⟨v, l', e⟩ := ih.2 c d h rfl hc hd
          exact ⟨v, l' ++ [.map m r], by rw [e]; rfl⟩
    | @both h q m r v hh hr ih =>
      have hne : h ≠ [] := hist_ne hh
      refine ⟨fun c hc => ?_, fun c d l hl hc hd => ?_⟩
      · cases h <;> simp_all
      · rcases h with _ | ⟨a, _ | ⟨b, h⟩⟩
        · exact absurd rfl hne
        · simp only [List.cons_append, List.nil_append, List.cons.injEq] at hl
          obtain ⟨rfl, rfl, rfl⟩ := hl
          obtain ⟨s, hs⟩ := ih.1 c rfl hc
          cases hs
          exact ⟨v, [], by simp [Call.good, hr]⟩
        · simp only [List.cons_append, List.cons.injEq] at hl
          obtain ⟨rfl, rfl, rfl⟩ := hl
          obtain ⟨w, l', e⟩ := ih.2 c d h rfl hc hd
          exact ⟨w, l' ++ [.map m r, .reduce r.val q.value v], by rw [e]; rfl⟩
  exact (this log q e h).2 c d l hll hc hd

/-! ## C61: the ledger -/

/-- The results held by workers. -/
def held (o : Ops N X) (s : Job n N X) : Multiset X := ∑ i, o.own (((s.result i).map Maybe.value).getD none)

theorem own_none : o.own none = 0 := by simp [Ops.own]

theorem ledger_inv [DecidableEq N] {hn : 0 < n} {a : N} :
    ∀ x, Bag.Reach (task o g bw hash hn) a start x → x.1.made = x.1.freed + held o x.1 := by
  refine bag_induct (motive := fun s => s.made = s.freed + held o s) ?_ ?_ ?_ ?_
  · simp [start, held, own_none]
  · intro s h; exact h
  · intro s i sample stop _ _ _ h; exact h
  · intro s i m s' h he _ _ hv
    let F : Option (Maybe X) → Multiset X := fun q => o.own ((q.map Maybe.value).getD none)
    have hsum : ∀ q, (∑ j, F (Function.update s.result i q j)) + F (s.result i) = held o s + F q := by
      intro q
      have h1 := Build.sum_update F (fun j => if j = i then none else s.result j) i q (F q) (by simp [F, own_none])
      have h2 := Build.sum_update F (fun j => if j = i then none else s.result j) i (s.result i) (F (s.result i)) (by simp [F, own_none])
      have e : ∀ q, Function.update (fun j => if j = i then none else s.result j) i q = Function.update s.result i q := by
        intro q; funext j
        by_cases hj : j = i
        · subst hj; simp
        · simp [Function.update_of_ne hj, hj]
      rw [e] at h1 h2
      rw [Function.update_eq_self] at h2
      have : held o s = ∑ j, F (s.result j) := rfl
      rw [this, h1, h2]
      abel
    cases hv with
    | first h0 =>
      simp only at h0
      have := hsum (some ⟨mapped (o.map s.clock m), (o.map s.clock m).ux⟩)
      rw [h0] at this
      have e : F none = 0 := by simp [F, own_none]
      rw [e, add_zero] at this
      change s.made + _ = s.freed + _ + ∑ j, F (Function.update s.result i _ j)
      rw [this, h]
      by_cases hr : (o.map s.clock m).ux = 0
      · simp [F, mapped, hr, add_assoc]
      · simp only [F, mapped, hr, ne_eq, not_false_eq_true, if_true, Option.map_some, Option.getD_some, own_none]
        abel
    | mapFails q h0 hr =>
      simp only at h0
      have := hsum (some { q with value := none })
      rw [h0] at this
      have e : F (some { q with value := none }) = 0 := by simp [F, own_none]
      have e' : F (some q) = o.own q.value := rfl
      rw [e, e', add_zero] at this
      change s.made + _ = s.freed + (if _ then _ else _) + o.own q.value + ∑ j, F (Function.update s.result i _ j)
      rw [if_pos hr, h, ← this]
      simp only
      abel
    | both q h0 hr =>
      simp only at h0
      have := hsum (some { q with value := (o.red (s.clock + 1) (o.map s.clock m).val q.value).val })
      rw [h0] at this
      have e' : F (some q) = o.own q.value := rfl
      have e : F (some { q with value := (o.red (s.clock + 1) (o.map s.clock m).val q.value).val }) =
        o.own (o.red (s.clock + 1) (o.map s.clock m).val q.value).val := rfl
      rw [e, e'] at this
      change s.made + _ + _ = s.freed + _ + o.own q.value + ∑ j, F (Function.update s.result i _ j)
      rw [h]
      have h3 : s.freed + o.own (o.map s.clock m).val + ((∑ j, F (Function.update s.result i
          (some { q with value := (o.red (s.clock + 1) (o.map s.clock m).val q.value).val }) j)) + o.own q.value) =
        s.freed + o.own (o.map s.clock m).val + (held o s + o.own (o.red (s.clock + 1) (o.map s.clock m).val q.value).val) := by
        rw [this]
      calc _ = s.freed + o.own (o.map s.clock m).val + (held o s + o.own (o.red (s.clock + 1) (o.map s.clock m).val q.value).val) := by
            abel
        _ = _ := by rw [← h3]; abel

theorem reduces_ledger {p : Multiset (Option (Option X))} {v a b} (h : Reduces o p v a b) :
    (p.map fun q => o.own (q.getD none)).sum + a = b + o.own (v.getD none) := by
  induction h with
  | nothing => simp [own_none]
  | skip _ ih => simpa [own_none] using ih
  | last x => simp
  | @pair x y s r a b t _ _ ih =>
    simp only [Multiset.map_cons, Multiset.sum_cons, Option.getD_some] at ih ⊢
    calc _ = o.own x + o.own y + (o.own (o.red t x y).val + (s.map fun q => o.own (q.getD none)).sum + a) := by abel
      _ = _ := by rw [ih]; abel

theorem drains_ledger {p : Multiset (Option (End X))} {e a b} (h : Drains o p e a b) : (p.map (End.owned o)).sum + a = b := by
  induction h with
  | raised h => simp
  | skip _ ih => simpa [End.owned] using ih
  | @pair x y s e a b t hx hy _ ih =>
    simp only [Multiset.map_cons, Multiset.sum_cons, End.owned, hx, hy, if_true] at ih ⊢
    rw [← ih]
    abel

/-- An error of the reduction phase is the status of a worker or the error of a reduction. -/
theorem drains_cause {p : Multiset (Option (End X))} {e a b} (h : Drains o p e a b) :
    e ≠ 0 ∧ ((∃ q, some q ∈ p ∧ q.status = e) ∨ ∃ t x y, (o.red t x y).ux = e) := by
  induction h with
  | raised h => exact ⟨h, .inl ⟨_, Multiset.mem_cons_self _ _, rfl⟩⟩
  | skip _ ih =>
    refine ⟨ih.1, ?_⟩
    rcases ih.2 with ⟨q, hq, he⟩ | h
    · exact .inl ⟨q, Multiset.mem_cons_of_mem hq, he⟩
    · exact .inr h
  | @pair x y s e a b t hx hy _ ih =>
    refine ⟨ih.1, ?_⟩
    rcases ih.2 with ⟨q, hq, he⟩ | h
    · rcases Multiset.mem_cons.1 hq with h | h
      · injection h with h
        rw [h] at he
        simp only [first] at he
        split_ifs at he with h1 h2
        · exact .inl ⟨x, Multiset.mem_cons_self _ _, he⟩
        · exact .inl ⟨y, Multiset.mem_cons_of_mem (Multiset.mem_cons_self _ _), he⟩
        · exact .inr ⟨_, _, _, he⟩
      · exact .inl ⟨q, Multiset.mem_cons_of_mem (Multiset.mem_cons_of_mem h), he⟩
    · exact .inr h

/-- **C61.** At any time in any execution, whatever callbacks fail, each result returned by a callback has been destroyed once
or is held by one worker. -/
theorem C61_held [DecidableEq N] {hn : 0 < n} {initial : N} {x : State n N (Job n N X)}
    (hx : Net.Reach (task o g bw hash hn) initial start x) :
    x.g.made = x.g.freed + ∑ i, o.own (((x.g.result i).map Maybe.value).getD none) :=
  ledger_inv _ (reach_bag hn hx)

/-- **C61.** At the end, whatever callbacks fail and whether or not the operation is killed, each result returned by a callback
has been destroyed once except the one that is returned, and if there's an error then all have been destroyed once. -/
theorem C61_end [DecidableEq N] {hn : 0 < n} {initial : N} {s : Job n N X} (hs : Ends o g bw hash hn initial s)
    {r made freed} (hr : Outcomes o s r made freed) : made = freed + o.own (r.toOption.getD none) := by
  obtain ⟨x, hx, hd, rfl⟩ := hs
  have hl := C61_held hx
  have hpool : (∑ i, o.own (((x.g.result i).map Maybe.value).getD none)) =
      x.g.released o + (x.g.pool.map fun q => o.own (q.getD none)).sum := by
    have : (x.g.pool.map fun q => o.own (q.getD none)).sum = ∑ i, o.own ((x.g.returned i).getD none) := by
      rw [Job.pool, Multiset.map_coe, List.map_map, Multiset.sum_coe, ← List.ofFn_eq_map, List.sum_ofFn]
      rfl
    rw [this, Job.released, ← Finset.sum_add_distrib]
    refine Finset.sum_congr rfl fun i _ => ?_
    unfold Job.returned
    split_ifs <;> simp [own_none]
  have hexits : (x.g.exits.map (End.owned o)).sum = (x.g.pool.map fun q => o.own (q.getD none)).sum := by
    rw [Job.exits, Job.pool, Multiset.map_coe, List.map_map, Multiset.map_coe, List.map_map]
    congr 2
    refine List.map_congr_left fun i _ => ?_
    simp only [Function.comp, Job.exit, Job.returned]
    by_cases h1 : x.g.err i ≠ 0
    · rw [if_pos h1, if_pos (.inl h1)]; simp [End.owned, own_none]
    · by_cases h2 : x.g.stop i = true
      · have h3 : x.g.err i ≠ 0 ∨ x.g.stop i = true := .inr h2
        rw [if_neg h1, if_pos h2, if_pos h3]
        split_ifs <;> simp [End.owned, own_none]
      · rw [if_neg h1, if_neg h2, if_neg (not_or.2 ⟨h1, h2⟩)]
        cases x.g.result i <;> simp [End.owned, own_none]
  rw [hpool] at hl
  cases hr with
  | @failed e a b h =>
    have := drains_ledger h
    rw [hexits] at this
    rw [hl, show (Except.error e : Except Int (Option X)).toOption.getD none = none from rfl, own_none, ← this]
    abel
  | @kill v a b _ h _ =>
    have := reduces_ledger h
    rw [hl, show (Except.error Build.intKil : Except Int (Option X)).toOption.getD none = none from rfl, own_none]
    calc _ = x.g.freed + x.g.released o + ((x.g.pool.map fun q => o.own (q.getD none)).sum + a) := by abel
      _ = _ := by rw [this]; abel
  | @value v a b _ h _ =>
    have := reduces_ledger h
    rw [hl, show (Except.ok (v.getD none) : Except Int (Option X)).toOption.getD none = v.getD none from rfl]
    calc _ = x.g.freed + x.g.released o + ((x.g.pool.map fun q => o.own (q.getD none)).sum + a) := by abel
      _ = _ := by rw [this]; abel

/-! ## C118: errors -/

theorem hist_status {h : List (Call N X)} {q e} (hh : Hist h q e) :
    (first e ((q.map Maybe.status).getD 0) = 0 → ∀ c ∈ h, c.ux = 0) ∧
    (first e ((q.map Maybe.status).getD 0) ≠ 0 → ∃ c ∈ h, c.ux = first e ((q.map Maybe.status).getD 0)) := by
  induction hh with
  | nil => exact ⟨(fun _ c hc => by cases hc), fun h => absurd rfl h⟩
  | first m r =>
    simp only [first, Option.map_some, Option.getD_some, ne_eq, not_true_eq_false, if_false]
    refine ⟨fun h c hc => ?_, fun _ => ⟨_, List.mem_singleton_self _, rfl⟩⟩
    rw [List.mem_singleton.1 hc]; exact h
  | mapFails m r _ hr _ =>
    simp only [first, if_pos hr]
    exact ⟨fun h => absurd h hr, fun _ => ⟨.map m r, by simp, rfl⟩⟩
  | @both h q m r v _ hr ih =>
    simp only [first, Option.map_some, Option.getD_some, ne_eq, not_true_eq_false, if_false] at ih ⊢
    by_cases hv : v.ux = 0
    · rw [if_neg (not_not.2 hv)]
      refine ⟨fun h0 c hc => ?_, fun h0 => ?_⟩
      · rcases List.mem_append.1 hc with hc | hc
        · exact ih.1 h0 c hc
        · simp only [List.mem_cons, List.not_mem_nil, or_false] at hc
          rcases hc with rfl | rfl
          · exact hr
          · exact hv
      · obtain ⟨c, hc, he⟩ := ih.2 h0
        exact ⟨c, List.mem_append_left _ hc, he⟩
    · rw [if_pos hv]
      exact ⟨fun h => absurd h hv, fun _ => ⟨.reduce r.val q.value v, by simp, rfl⟩⟩

/-- **C118.** If a callback made by a worker fails, an error is returned. -/
theorem C118_reported [DecidableEq N] {hn : 0 < n} {initial : N} {s : Job n N X} (hs : Ends o g bw hash hn initial s)
    {r made freed} (hr : Outcomes o s r made freed) {i : Fin n} {c : Call N X} (hc : c ∈ s.log i) (hu : c.ux ≠ 0) :
    ∃ e, r = .error e ∧ e ≠ 0 ∧ ((∃ j, ∃ c ∈ s.log j, c.ux = e) ∨ ∃ t x y, (o.red t x y).ux = e) := by
  obtain ⟨x, hx, hd, rfl⟩ := hs
  have hh := fun j => hist_status (hist_inv _ (reach_bag hn hx) j)
  have hst : ∀ j, x.g.status j = first (x.g.err j) (((x.g.result j).map Maybe.status).getD 0) := fun _ => rfl
  have hne : x.g.status i ≠ 0 := fun h => hu ((hh i).1 h c hc)
  cases hr with
  | failed h =>
    refine ⟨_, rfl, (drains_cause h).1, ?_⟩
    rcases (drains_cause h).2 with ⟨q, hq, he⟩ | h'
    · obtain ⟨j, hj⟩ := exits_mem.1 hq
      have hs := exit_status hj
      have h0 := (drains_cause h).1
      rw [← he, hs] at h0
      obtain ⟨c, hc, hu⟩ := (hh j).2 h0
      exact .inl ⟨j, c, hc, by rw [← he, hs]; exact hu⟩
    · exact .inr h'
  | kill h _ _ => exact absurd (h i) hne
  | value h _ _ => exact absurd (h i) hne

/-- **C118.** An error that is returned is that of a callback made by a worker or of a reduction of their results, or it is
`CRU_INTKIL` if the operation was killed and no callback failed. -/
theorem C118_cause [DecidableEq N] {hn : 0 < n} {initial : N} {s : Job n N X} (hs : Ends o g bw hash hn initial s)
    {e made freed} (hr : Outcomes o s (.error e) made freed) :
    (e ≠ 0 ∧ ((∃ j, ∃ c ∈ s.log j, c.ux = e) ∨ ∃ t x y, (o.red t x y).ux = e)) ∨
    (e = Build.intKil ∧ s.killed ≠ 0 ∧ ∀ j, ∀ c ∈ s.log j, c.ux = 0) := by
  by_cases hf : ∃ j, ∃ c ∈ s.log j, c.ux ≠ 0
  · obtain ⟨j, c, hc, hu⟩ := hf
    obtain ⟨e', he, h⟩ := C118_reported hs hr hc hu
    injection he with he
    rw [he]; exact .inl h
  · have h0 : ∀ j, ∀ c ∈ s.log j, c.ux = 0 := fun j c hc => by
      by_contra h; exact hf ⟨j, c, hc, h⟩
    obtain ⟨x, hx, hd, rfl⟩ := hs
    have hh := fun j => hist_status (hist_inv _ (reach_bag hn hx) j)
    have hst : ∀ j, x.g.status j = 0 := fun j => by
      by_contra h
      obtain ⟨c, hc, hu⟩ := (hh j).2 h
      exact h (hu.symm.trans (h0 j c hc))
    generalize hq : (Except.error e : Except Int (Option X)) = q at hr
    cases hr with
    | failed h =>
      injection hq with hq
      rw [← hq] at h
      refine .inl ⟨(drains_cause h).1, ?_⟩
      rcases (drains_cause h).2 with ⟨q, hq, he⟩ | h'
      · exact absurd ((he.symm.trans (exits_status hst q hq))) (drains_cause h).1
      · exact .inr h'
    | kill _ _ hk => injection hq with hq; exact .inr ⟨hq, hk, h0⟩
    | value _ _ _ => cases hq

/-! ## Demonstrations -/

/-- The sum of the vertices, with a destructor. -/
def sumOps (vacuous : Option Nat) : Ops Nat Nat :=
  ⟨fun _ m => ⟨some m, 0⟩, fun _ x y => ⟨some (x.getD 0 + y.getD 0), 0⟩, vacuous.map fun u _ => ⟨some u, 0⟩, true⟩

/-- The operator that `sumOps` reduces by. -/
def sumOp (x y : Option Nat) : Option Nat := some (x.getD 0 + y.getD 0)

theorem sum_plain (u) : Plain (sumOps u) some sumOp where
  map _ _ := rfl
  red _ _ _ := rfl
  comm x y := by simp [sumOp, Nat.add_comm]
  assoc x y z := by simp [sumOp, Nat.add_assoc]

theorem demo_zone : IsZone Count.demo false 0 [0, 1, 2, 3] :=
  ⟨by decide, Count.demo_wf.reach⟩

/-- Non-vacuity of `C18_concurrent`, `C18_terminates` and `C61_end`: on five lanes, the sum of the vertices is returned, and it
is the only one of the results not destroyed. -/
example : ∃ s made freed, Ends (sumOps (some 100)) Count.demo false id (show 0 < 5 by decide) 0 s ∧
    Outcomes (sumOps (some 100)) s (.ok (some 6)) made freed ∧ made = freed + {6} := by
  obtain ⟨s, hs, hk, r, made, freed, ho⟩ := (C18_terminates (sumOps (some 100)) id (show 0 < 5 by decide) demo_zone).2
  obtain ⟨v, hv, hr⟩ := (C18_concurrent (sum_plain _) hs ho demo_zone).1 hk
  have : v = some 6 := by
    have h6 : combined sumOp (List.map some [0, 1, 2, 3]) = some (some 6) := by decide
    rw [h6] at hv; exact (Option.some.inj hv).symm
  subst this
  subst hr
  refine ⟨s, made, freed, hs, ho, ?_⟩
  exact C61_end hs ho

/-- The vertices, with a destructor and a reduction that returns a result along with an error. -/
def badOps : Ops Nat Nat :=
  ⟨fun _ m => ⟨some m, 0⟩, fun _ x y => ⟨some (x.getD 0 + y.getD 0), 9⟩, none, true⟩

/-- An execution with two lanes. -/
def badRun : State 2 Nat (Job 2 Nat Nat) := greedy (task badOps Count.demo false id Nat.two_pos) 0 200 (init start)

theorem badRun_ends : Ends badOps Count.demo false id Nat.two_pos 0 badRun.g :=
  ⟨_, greedy_reach _ _ .init, by decide +kernel, rfl⟩

theorem badRun_exit : badRun.g.exit 0 = some ⟨none, false, 9⟩ := by
  have : badRun.g.err 0 = 9 := by decide +kernel
  simp [Job.exit, this]

/-- Non-vacuity of `C61_end`, `C118_reported` and `C118_cause` with errors: both workers get an error from the reduction along
with a result, and everything is destroyed. -/
example : ∃ made freed, Outcomes badOps badRun.g (.error 9) made freed ∧ made = freed ∧ 6 ≤ made.card ∧
    ∃ c ∈ badRun.g.log 0, c.ux ≠ 0 := by
  have hm : (some ⟨none, false, 9⟩ : Option (End Nat)) ∈ badRun.g.exits := exits_mem.2 ⟨0, badRun_exit⟩
  obtain ⟨a, b, h⟩ := drains_raised badOps hm (by decide)
  have ho := Outcomes.failed h
  refine ⟨_, _, ho, by simpa [own_none, Except.toOption] using C61_end badRun_ends ho, ?_, ?_⟩
  · have : badRun.g.made.card = 6 := by decide +kernel
    rw [Multiset.card_add]; omega
  · have : badRun.g.log 0 |>.any fun c => c.ux ≠ 0 := by decide +kernel
    simpa using this

/-- Non-vacuity of `C18_returns` with a single lane. -/
example : Returns (sumOps none) Count.demo false false id (show 0 < 1 by decide) 0 (.ok (some 6)) := by
  unfold Returns
  rw [if_pos (by decide)]
  have := sequential_value (sum_plain none) none (by intro z h; cases h) 0 [1, 2, 3]
  change _ = if (sequential (sumOps none) [0, 1, 2, 3]).2.err ≠ 0 then _ else Except.ok ((sequential (sumOps none) [0, 1, 2, 3]).1.map Obj.val)
  rw [if_neg (not_not.2 this.1), this.2]
  decide

/-- The defect in the vacuous case: the result of the same map-reduction of the same graph is 106 with one lane and 6 with
five. -/
theorem C18_lanes_disagree :
    (∀ r, Returns (sumOps (some 100)) Count.demo false false id (show 0 < 1 by decide) 0 r → r = .ok (some 106)) ∧
    ∀ r, Returns (sumOps (some 100)) Count.demo false false id (show 0 < 5 by decide) 0 r → r = .ok (some 6) ∨ r = .error Build.intKil := by
  refine ⟨fun r hr => ?_, fun r hr => ?_⟩
  · obtain ⟨v, hv, h⟩ := C18_vacuous_case_counts (sum_plain _) (by decide) rfl (fun t => rfl) hr
    have h6 : combined sumOp (some 100 :: List.map some Count.demo.nodes) = some (some 106) := by decide
    rw [h6] at hv
    rw [h, Option.some.inj hv]
  · rcases C18_returns (sum_plain _) (fun h => absurd h (by decide)) hr demo_zone with ⟨v, hv, h⟩ | h
    · left
      have h6 : combined sumOp (List.map some [0, 1, 2, 3]) = some (some 6) := by decide
      rw [h6] at hv
      rw [h, Option.some.inj hv]
    · exact .inr h

/-- A graph with base 0, a vertex 1 that is both a successor and a predecessor of it, and a successor 2. -/
def ring : Gr Nat Nat Nat where
  nodes := [0, 1, 2]
  base := 0
  vertex := id
  out m := match m with
    | 0 => [(0, 1), (0, 2)]
    | 1 => [(0, 0)]
    | _ => []
  inn m := match m with
    | 0 => [(0, 1)]
    | 1 => [(0, 0)]
    | 2 => [(0, 0)]
    | _ => []

theorem ring_zone : IsZone ring true 0 [0, 1] := by
  refine ⟨by decide, fun m => ⟨fun h => ?_, fun h => ?_⟩⟩
  · have : m = 0 ∨ m = 1 := by simpa using h
    rcases this with rfl | rfl
    · exact .refl
    · exact .single (by decide)
  · induction h with
    | refl => decide
    | tail _ hb ih =>
      rename_i a c _
      have ha : a = 0 ∨ a = 1 := by simpa using ih
      rcases ha with rfl | rfl <;> simp [ring, Gr.next] at hb ⊢ <;> omega

/-- The defect in the zone: the sum of the vertices from which vertex 0 is reachable is 1, and this is the result with five
lanes, but it's 3 with one lane. -/
theorem C18_zones_disagree :
    (∀ r, Returns (sumOps none) ring true false id (show 0 < 1 by decide) 0 r → r = .ok (some 3)) ∧
    ∀ r, Returns (sumOps none) ring true false id (show 0 < 5 by decide) 0 r → r = .ok (some 1) ∨ r = .error Build.intKil := by
  refine ⟨fun r hr => ?_, fun r hr => ?_⟩
  · obtain ⟨v, hv, h⟩ := C18_zone_ignored (sum_plain _) (by decide) rfl hr
    have h6 : combined sumOp (List.map some ring.nodes) = some (some 3) := by decide
    rw [h6] at hv
    rw [h, Option.some.inj hv]
  · rcases C18_returns (sum_plain _) (fun h => absurd h (by decide)) hr ring_zone with ⟨v, hv, h⟩ | h
    · left
      have h6 : combined sumOp (List.map some [0, 1]) = some (some 1) := by decide
      rw [h6] at hv
      rw [h, Option.some.inj hv]
    · exact .inr h

/-- A map that fails at vertex 0. -/
def failOps : Ops Nat Nat :=
  ⟨fun _ m => if m = 0 then ⟨none, 5⟩ else ⟨some m, 0⟩, fun _ x y => ⟨some (x.getD 0 + y.getD 0), 0⟩, none, true⟩

/-- Non-vacuity of `C57_error_cleared`: the map fails at the first vertex, and then a reduction is called with null. -/
example : ∃ x : State 1 Nat (Job 1 Nat Nat), Net.Reach (task failOps ring false id (by decide)) 0 start x ∧
    x.g.log 0 = [.map 0 ⟨none, 5⟩, .map 2 ⟨some 2, 0⟩, .reduce (some 2) none ⟨some 2, 0⟩,
      .map 1 ⟨some 1, 0⟩, .reduce (some 1) (some 2) ⟨some 3, 0⟩] := by
  refine ⟨greedy _ 0 20 (init start), greedy_reach _ _ Reach.init, ?_⟩
  rfl

/-- Non-vacuity of `C57_operands`: a run in which a worker reduces twice. -/
example : ∃ x : State 1 Nat (Job 1 Nat Nat), Net.Reach (task (sumOps none) ring false id (by decide)) 0 start x ∧
    x.g.log 0 = [.map 0 ⟨some 0, 0⟩, .map 2 ⟨some 2, 0⟩, .reduce (some 2) (some 0) ⟨some 2, 0⟩,
      .map 1 ⟨some 1, 0⟩, .reduce (some 1) (some 2) ⟨some 3, 0⟩] ∧ x.g.made = x.g.freed + {3} := by
  refine ⟨greedy _ 0 20 (init start), greedy_reach _ _ Reach.init, rfl, ?_⟩
  decide

end Cru.MapReduce
