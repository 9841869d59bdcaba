import Verif.Model.Coverage
import Verif.Props.Mutate
import Mathlib.Tactic.IntervalCases

/-!
# C126: mutation of part of a graph is refused in the wrong cases

According to cru_zone and cru_plan, `CRU_TPCMUT` is reported if the zone covers less than the whole graph and the mutation changes the
destructors.  It's reported if the mutation doesn't change them.
-/

namespace Cru.Mutate

open Net

variable {n : Nat} {N V L : Type} [DecidableEq N] [DecidableEq L]
variable {k : Kernel V L} {p : Plan} {g : Gr N V L} {b : N} {hash : N → Nat} {hn : 0 < n} {k₀ k₁ k₂ k₃ : Nat} {d f : Destructors}

omit [DecidableEq L] in
/-- The nodes that a worker has found to be reachable are in the zone, even if it was killed.  If it wasn't, they are all of those on its
lane. -/
theorem analyzed_zone {reach : Fin n → Option (List N)} (ha : Analyzed g p b hash hn k₁ reach) (hb : b ≠ g.base) :
    (∀ i m, (reach i).any (fun l => decide (m ∈ l)) = true → p.unordered = false ∧ Zone g p b m) ∧
    (k₁ = 0 → p.unordered = false → ∀ m, Zone g p b m → (reach (Build.lane hn (hash m))).any (fun l => decide (m ∈ l)) = true) := by
  unfold Analyzed at ha
  by_cases c : p.unordered = true
  · rw [if_pos c] at ha
    subst ha
    exact ⟨fun i m hm => (by cases hm), fun _ h => absurd c (by simp [h])⟩
  · rw [if_neg c] at ha
    rcases ha with ⟨h, -⟩ | ⟨-, z, hz, hd, hk, rfl⟩
    · exact absurd h hb
    · have hbag := reach_bag hn hz
      have hp := (inv_finished (i₀ := b) (reach_inv hn hz) (by rw [hd]; trivial)).1
      rw [hp] at hbag
      let W := Trav.walker (n := n) (S := Unit) (g.next p.backwards) (fun _ s _ => (s, 0)) hash hn
      have h2 : W.Inv b z.g 0 := by exact Walker.inv_reach (g₀ := Trav.start ()) (fun i => rfl) (z.g, 0) hbag
      have hany : ∀ i m, (if z.g.seen i = [] then none else some (z.g.seen i)).any (fun l => decide (m ∈ l)) = true ↔ m ∈ z.g.seen i := by
        intro i m
        split
        · rename_i e; rw [e]; simp
        · simp
      refine ⟨fun i m hm => ⟨by simpa using c, h2.reach i m ((hany i m).1 hm)⟩, fun h0 _ m hm => (hany _ m).2 ?_⟩
      have herr : ∀ i, z.g.err i = 0 := by
        exact Trav.induct (motive := fun _ err _ => ∀ i, err i = 0) (fun _ => rfl) (fun seen err mem m h _ _ _ i => by
          by_cases hi : i = Build.lane hn (hash m)
          · subst hi; rw [Function.update_self]
          · rw [Function.update_of_ne hi]; exact h i) _ hbag
      obtain ⟨j, hj⟩ := Walker.mem_visited.1
        ((Walker.visited_iff h2 (fun i => ⟨herr i, Trav.stop_inv _ hbag (by rw [hk, h0]) i⟩) m).2 hm)
      have : Build.lane hn (hash m) = j := h2.home j m hj
      rw [this]; exact hj

omit [DecidableEq L] in
theorem coverage_err {reach : Fin n → Option (List N)} {x : State n N (Trav.Job n N Unit)}
    (hx : Reach (coverage g reach hash hn) g.base (Trav.start ()) x) :
    (∀ i, x.g.err i = 0 ∨ x.g.err i = tpcMut ∧ ∃ m, Reaches (g.next false) g.base m ∧ Build.lane hn (hash m) = i ∧
      ¬ (reach i).any (fun l => decide (m ∈ l)) = true) ∧
    ((∀ i, x.g.err i = 0) → ∀ i, ∀ m ∈ x.g.seen i, (reach i).any (fun l => decide (m ∈ l)) = true) := by
  refine Trav.induct (motive := fun seen err _ => (∀ i, err i = 0 ∨ err i = tpcMut ∧ ∃ m, Reaches (g.next false) g.base m ∧
      Build.lane hn (hash m) = i ∧ ¬ (reach i).any (fun l => decide (m ∈ l)) = true) ∧
    ((∀ i, err i = 0) → ∀ i, ∀ m ∈ seen i, (reach i).any (fun l => decide (m ∈ l)) = true)) ⟨fun _ => .inl rfl, fun _ i m hm => by cases hm⟩ ?_ _
    (reach_bag hn hx)
  intro seen err mem m ih hm he hs
  have e0 : ∀ i, i ≠ Build.lane hn (hash m) → ∀ v, Function.update err (Build.lane hn (hash m)) v i = err i := fun i hi v => Function.update_of_ne hi _ _
  refine ⟨fun i => ?_, fun h i t ht => ?_⟩
  · by_cases hi : i = Build.lane hn (hash m)
    · subst hi
      rw [Function.update_self]
      by_cases c : (reach (Build.lane hn (hash m))).any (fun l => decide (m ∈ l)) = true
      · exact .inl (by dsimp only; rw [if_pos c])
      · exact .inr ⟨by dsimp only; rw [if_neg c], m, hm, rfl, c⟩
    · rw [e0 i hi]; exact ih.1 i
  · have h0 : ∀ i, err i = 0 := fun i => by
      by_cases hi : i = Build.lane hn (hash m)
      · subst hi; exact he
      · have := h i; rw [e0 i hi] at this; exact this
    by_cases hi : i = Build.lane hn (hash m)
    · subst hi
      rw [Function.update_self] at ht
      rcases List.mem_append.1 ht with ht | ht
      · exact ih.2 h0 _ _ ht
      · have hl := h (Build.lane hn (hash m))
        rw [Function.update_self] at hl
        dsimp only at hl
        rw [List.mem_singleton] at ht
        subst ht
        by_contra c
        rw [if_neg c] at hl
        cases hl
    · rw [Function.update_of_ne hi] at ht
      exact ih.2 h0 _ _ ht

theorem checked_error (hg : Full g) (hb : b ≠ g.base) {reach : Fin n → Option (List N)} (ha : Analyzed g p b hash hn k₁ reach)
    (hz : p.unordered = true ∨ ∃ m ∈ g.nodes, ¬ Zone g p b m) {e : Int} (hc : Checked g reach hash hn 0 e) : e = tpcMut := by
  obtain ⟨x, hx, hd, hk, he⟩ := hc
  have h1 := coverage_err hx
  have h2 := (analyzed_zone ha hb).1
  rcases he with ⟨i, hi, rfl⟩ | ⟨hi, rfl⟩
  · rcases h1.1 i with h | h
    · exact absurd h hi
    · exact h.1
  · exfalso
    have hperm := Trav.done_perm hx hd hk hi (ms := g.nodes) ⟨hg.wf.nodup, hg.wf.reach⟩
    have hall : ∀ m ∈ g.nodes, p.unordered = false ∧ Zone g p b m := fun m hm => by
      obtain ⟨i, -, hs⟩ := List.mem_flatMap.1 (hperm.mem_iff.2 hm)
      exact h2 i m (h1.2 hi i m hs)
    rcases hz with hz | ⟨m, hm, hz⟩
    · rw [(hall g.base ((hg.wf.reach _).2 .refl)).1] at hz; cases hz
    · exact hz (hall m hm).2

theorem checked_passed (hb : b ≠ g.base) {reach : Fin n → Option (List N)} (ha : Analyzed g p b hash hn 0 reach)
    (ho : p.unordered = false) (hz : ∀ m, Reaches (g.next false) g.base m → Zone g p b m) {e : Int} (hc : Checked g reach hash hn k₀ e) : e = 0 := by
  obtain ⟨x, hx, hd, hk, ⟨i, hi, rfl⟩ | ⟨-, rfl⟩⟩ := hc
  · rcases (coverage_err hx).1 i with h | ⟨-, m, hm, rfl, h⟩
    · exact h
    · exact absurd ((analyzed_zone ha hb).2 rfl ho m (hz m hm)) h
  · rfl

theorem compatible_iff : compatible d f = true ↔ f = d := by
  obtain ⟨v, e⟩ := d
  obtain ⟨v', e'⟩ := f
  unfold compatible
  by_cases c : v = v' <;> by_cases c' : e = e' <;> simp [c, c', eq_comm]

/-- C126: if the mutation doesn't change the destructors, but there's a vertex outside of the zone, or no traversal order is requested, then
`cru_mutated` fails with `CRU_TPCMUT` (unless killed while checking this).  This is the defect. -/
theorem C126_refused (hg : Full g) (hb : b ≠ g.base) (hsame : f = d) (hz : p.unordered = true ∨ ∃ m ∈ g.nodes, ¬ Zone g p b m)
    {r : Except Int (Gr N V L × Destructors)} (hr : Revises g p b k d f hash hn 0 k₁ k₂ k₃ r) : r = .error tpcMut := by
  cases hr with
  | refused ha _ _ hc _ => rw [checked_error hg hb ha hz hc]
  | passed ha _ _ hc _ => cases checked_error hg hb ha hz hc
  | unchecked _ h _ =>
    rcases h with h | h
    · exact absurd h hb
    · rw [compatible_iff.2 hsame] at h; cases h

omit [DecidableEq L] in
/-- C126: whatever the zone is, if the mutation changes the destructors, `cru_mutated` goes ahead, and a graph that's returned gets the new
destructors.  It also goes ahead if the zone starts at the base vertex. -/
theorem C126_unchecked (h : f ≠ d ∨ b = g.base) {r : Except Int (Gr N V L × Destructors)} :
    Revises g p b k d f hash hn k₀ k₁ k₂ k₃ r ↔
      ∃ s r', Mutates g p b k hash hn k₁ k₂ k₃ s r' ∧ r = r'.map fun h => (h, inferred k d f) := by
  constructor
  · intro hr
    cases hr with
    | refused _ hb hc _ _ => exact absurd (compatible_iff.1 hc) (h.resolve_right hb)
    | passed _ hb hc _ _ => exact absurd (compatible_iff.1 hc) (h.resolve_right hb)
    | unchecked ha _ hp => exact ⟨_, _, ⟨_, ha, hp⟩, rfl⟩
  · rintro ⟨s, r', ⟨reach, ha, hp⟩, rfl⟩
    refine .unchecked ha ?_ hp
    rcases h with h | h
    · exact .inr (by rw [← Bool.not_eq_true, compatible_iff]; exact h)
    · exact .inl h

/-- The check comes to an end, killed or not. -/
theorem exists_checked (hg : Full g) (reach : Fin n → Option (List N)) (hash : N → Nat) (hn : 0 < n) : ∃ e, Checked g reach hash hn 0 e := by
  obtain ⟨x, hx, hd, hk⟩ := (Trav.ends (next := g.next false) (fun i _ m => ((), if (reach i).any (fun l => decide (m ∈ l)) then 0 else tpcMut))
    hash hn (a := g.base) () (ms := g.nodes) (fun m hm => (hg.wf.reach m).2 hm)).2
  by_cases c : ∃ i, x.g.err i ≠ 0
  · obtain ⟨i, hi⟩ := c
    exact ⟨_, x, hx, hd, hk, .inl ⟨i, hi, rfl⟩⟩
  · push Not at c
    exact ⟨0, x, hx, hd, hk, .inr ⟨c, rfl⟩⟩

/-- C126: if the zone covers the graph, an order is requested, and the destructors aren't changed, then the check has no effect. -/
theorem C126_covered (hg : Full g) (hb : b ≠ g.base) (hsame : f = d) (ho : p.unordered = false) (hz : ∀ m ∈ g.nodes, Zone g p b m)
    {r : Except Int (Gr N V L × Destructors)} :
    Revises g p b k d f hash hn 0 0 k₂ k₃ r ↔ ∃ s r', Mutates g p b k hash hn 0 k₂ k₃ s r' ∧ r = r'.map fun h => (h, d) := by
  have hd : inferred k d f = d := by subst hsame; simp [inferred]
  constructor
  · intro hr
    cases hr with
    | refused ha _ _ hc he => exact absurd (checked_passed hb ha ho (fun m hm => hz m ((hg.wf.reach m).2 hm)) hc) he
    | passed ha _ _ _ hp => exact ⟨_, _, ⟨_, ha, hp⟩, by rw [hd]⟩
    | unchecked ha _ hp => exact ⟨_, _, ⟨_, ha, hp⟩, by rw [hd]⟩
  · rintro ⟨s, r', ⟨reach, ha, hp⟩, rfl⟩
    obtain ⟨e, he⟩ := exists_checked hg reach hash hn
    have h0 := checked_passed hb ha ho (fun m hm => hz m ((hg.wf.reach m).2 hm)) he
    subst h0
    have := Revises.passed (d := d) (f := f) ha hb (compatible_iff.2 hsame) he hp
    rw [hd] at this
    exact this

/-- **C126.** In any case the graph that's returned has the operator's vertex destructor if there is a vertex operator and otherwise the one
it had, and likewise with labels and the edge operator. -/
theorem C126_destructors {h : Gr N V L} {x : Destructors} (hr : Revises g p b k d f hash hn k₀ k₁ k₂ k₃ (.ok (h, x))) :
    (k.vop.isSome → x.v = f.v) ∧ (k.vop = none → x.v = d.v) ∧ (k.eop.isSome → x.e = f.e) ∧ (k.eop = none → x.e = d.e) := by
  have hx : x = inferred k d f := by
    generalize hy : (Except.ok (h, x) : Except Int (Gr N V L × Destructors)) = y at hr
    cases hr with
    | refused => cases hy
    | @passed reach s r _ _ _ _ _ =>
      cases r with
      | error => cases hy
      | ok => cases hy; rfl
    | @unchecked reach s r _ _ _ =>
      cases r with
      | error => cases hy
      | ok => cases hy; rfl
  subst hx
  unfold inferred
  refine ⟨fun h => ?_, fun h => by simp [h], fun h => ?_, fun h => by simp [h]⟩
  · obtain ⟨o, ho⟩ := Option.isSome_iff_exists.1 h
    simp only [ho, Option.isNone_some, Bool.false_or, decide_eq_true_eq]
    split
    · rename_i e; exact e.symm
    · rfl
  · obtain ⟨o, ho⟩ := Option.isSome_iff_exists.1 h
    simp only [ho, Option.isNone_some, Bool.false_or, decide_eq_true_eq]
    split
    · rename_i e; exact e.symm
    · rfl

/-- C126: in any case, `cru_mutated` comes to an end. -/
theorem C126_exists (hg : Full g) (hb : b ∈ g.nodes) (p : Plan) (k : Kernel V L) (d f : Destructors) (hash : N → Nat) (hn : 0 < n) :
    ∃ r, Revises g p b k d f hash hn 0 0 0 0 r := by
  obtain ⟨s, r, reach, ha, hp⟩ := (C20_ends hg hb p k hash hn).2.2
  by_cases c : b = g.base ∨ compatible d f = false
  · exact ⟨_, .unchecked ha c hp⟩
  · rw [not_or, Bool.not_eq_false] at c
    obtain ⟨e, he⟩ := exists_checked hg reach hash hn
    by_cases h0 : e = 0
    · subst h0; exact ⟨_, .passed ha c.1 c.2 he hp⟩
    · exact ⟨_, .refused ha c.1 c.2 he h0⟩

/-- In the graph with two ways from 0 to 3, there's no way from 1 to 2. -/
theorem kite_zone : ¬ Zone kite ⟨false, false, true⟩ 1 2 := fun hz => by
  rcases Relation.ReflTransGen.cases_head hz with h | ⟨t, h4, h5⟩
  · cases h
  · have : t = 3 := by simpa [Gr.next, kite] using h4
    subst this
    rcases Relation.ReflTransGen.cases_head h5 with h | ⟨t, h4, h5⟩
    · cases h
    · simp [Gr.next, kite] at h4

/-- C126: a graph is returned by `cru_mutated` with the destructor meant for mutated vertices, although one of its vertices is not mutated, and
should be freed by another one.  This is the defect. -/
theorem C126_mistaken : ∃ (s : Job 1 Nat Nat Bool) (h : Gr Nat Nat Bool),
    Revises kite ⟨false, false, true⟩ 1 adder ⟨some 1, none⟩ ⟨some 2, none⟩ id Nat.one_pos 0 0 0 0 (.ok (h, ⟨some 2, none⟩)) ∧
    Mutates kite ⟨false, false, true⟩ 1 adder id Nat.one_pos 0 0 0 s (.ok h) ∧
    2 ∈ h.nodes ∧ 2 ∉ s.log ∧ h.vertex 2 = kite.vertex 2 := by
  obtain ⟨s, h, hr⟩ := C20_exists (n := 1) (b := 1) kite_full (by decide) adder_ok ⟨false, false, true⟩ id Nat.one_pos
  obtain ⟨-, h2, -⟩ := C21_remote_first kite_full (by decide) (by decide) (kite_acyclic _) rfl (adder_sequential _) hr
  have h3 := h2 2 (by decide) kite_zone ⟨1, .refl, Subsingleton.elim _ _⟩
  refine ⟨s, h, (C126_unchecked (.inl (by decide))).2 ⟨s, _, hr, rfl⟩, hr, ?_, h3.2.2, h3.1⟩
  obtain ⟨reach, -, y, -, -, -, z, -, -, rfl, h4⟩ := hr
  rcases h4 with ⟨i, -, h4⟩ | ⟨-, h4⟩
  · cases h4
  · rw [if_neg (by simp)] at h4
    injection h4 with h4
    rw [h4]
    show 2 ∈ kite.nodes
    decide

/-- Non-vacuity: the same mutation with the same destructors is refused, with any number of lanes. -/
example (hn : 0 < n) (d : Destructors) : ∃ r, Revises kite ⟨false, false, true⟩ 1 adder d d id hn 0 0 0 0 r ∧ r = .error tpcMut := by
  obtain ⟨r, hr⟩ := C126_exists (b := 1) kite_full (by decide) ⟨false, false, true⟩ adder d d id hn
  exact ⟨r, hr, C126_refused kite_full (by decide) rfl (.inr ⟨2, by decide, kite_zone⟩) hr⟩

/-- Non-vacuity: so is any mutation in no particular order that doesn't start at the base vertex. -/
example (hn : 0 < n) (d : Destructors) : ∃ r, Revises loop ⟨false, false, false⟩ 2 counter d d id hn 0 0 0 0 r ∧ r = .error tpcMut := by
  obtain ⟨r, hr⟩ := C126_exists (b := 2) loop_full (by decide) ⟨false, false, false⟩ counter d d id hn
  exact ⟨r, hr, C126_refused loop_full (by decide) rfl (.inl rfl) hr⟩

/-- Non-vacuity: a zone covering the graph backwards. -/
example (hn : 0 < n) (d : Destructors) : ∃ h, Revises kite ⟨true, false, true⟩ 3 adder d d id hn 0 0 0 0 (.ok (h, d)) := by
  obtain ⟨s, h, hr⟩ := C20_exists (b := 3) kite_full (by decide) adder_ok ⟨true, false, true⟩ id hn
  refine ⟨h, (C126_covered kite_full (by decide) rfl rfl (fun m hm => ?_)).2 ⟨s, _, hr, rfl⟩⟩
  have h1 : Zone kite ⟨true, false, true⟩ 3 1 := .single (by decide)
  have h2 : Zone kite ⟨true, false, true⟩ 3 2 := .single (by decide)
  have h0 : Zone kite ⟨true, false, true⟩ 3 0 := h1.tail (by decide)
  have h3 : Zone kite ⟨true, false, true⟩ 3 3 := .refl
  simp only [kite, List.mem_range] at hm
  interval_cases m <;> assumption

end Cru.Mutate
