import Verif.Proofs.Sweep
import Verif.Props.Launch
import Mathlib.Algebra.BigOperators.Group.Finset.Basic

/-! # C136: what workers do at their ends, and sweeping -/

namespace Cru.Sweep

open Cru.Net

variable {n : Nat} {P G E X : Type}

/-- **C136, once.**  The code following the loop of a task is run at most once by each worker, only by those created, and by all of them
before the call returns.  What becomes of the data it's about is what it does to them in the order of being run.  This holds even if there
are spurious wake-ups. -/
theorem C136_once (T : Task n P G E) (ep : Fin n → X → X) (k : Nat) (p : Option P) (g : G) (x : X) (as : List (Act n E)) (s : St n P G X)
    (h : run T ep k p as (init k g x) = some s) :
    (finished as).Nodup ∧ (∀ i ∈ finished as, i.val < k) ∧ s.x = (finished as).foldl (fun x i => ep i x) x ∧
      (s.net.main = .done → ∀ i : Fin n, i.val < k → i ∈ finished as) := by
  obtain ⟨h1, h2⟩ := run_ok (init_ok k g x) h
  simp only [List.nil_append] at h1
  exact ⟨h1.once, fun i hi => (h1.gone i ((h1.mem i).mp hi)).1, h2, fun hd i hi => (h1.mem i).mpr (h1.joined hd i hi)⟩

theorem reach_of_run {T : Task n P G E} (hn : 0 < n) (i₀ : P) (g₀ : G) (as : List (Action n E)) (ha : ∀ a ∈ as, a.proper)
    (s s' : State n P G) (h : Launch.run T n (some i₀) as s = some s') (hs : Reach T i₀ g₀ s) : Reach T i₀ g₀ s' := by
  induction as generalizing s with
  | nil => injection h with h; subst h; exact hs
  | cons a as ih =>
    rw [Launch.run, (Launch.C133_usual hn T i₀ g₀).2 a s] at h
    cases ht : Net.step T i₀ a s with
    | none => rw [ht] at h; cases h
    | some t =>
      rw [ht] at h
      exact ih (fun b hb => ha b (List.mem_cons_of_mem _ hb)) t h (.step a (ha a List.mem_cons_self) hs ht)

theorem reach_net {T : Task n P G E} {ep : Fin n → X → X} (hn : 0 < n) {i₀ : P} {g : G} {x : X} {as : List (Act n E)}
    (ha : ∀ a, .net a ∈ as → a.proper) {s : St n P G X} (h : run T ep n (some i₀) as (init n g x) = some s) :
    Reach T i₀ g s.net := by
  refine reach_of_run hn i₀ g (nets as) (fun a hm => ha a (mem_nets hm)) _ _ (run_net h) ?_
  simp only [init]
  rw [(Launch.C133_usual hn T i₀ g).1]
  exact .init

/-- **C136, order.**  Without spurious wake-ups, nobody gets to the code following the loop before all work is done: when anybody has, there's no
packet left anywhere, and every worker is waiting or past its loop. -/
theorem C136_order (hn : 0 < n) (T : Task n P G E) (ep : Fin n → X → X) (i₀ : P) (g : G) (x : X) (as : List (Act n E))
    (ha : ∀ a, .net a ∈ as → a.proper) (s : St n P G X) (h : run T ep n (some i₀) as (init n g x) = some s) (hf : finished as ≠ []) :
    pending i₀ s.net = 0 ∧ ∀ i, (s.net.worker i).pc = .sleep ∨ (s.net.worker i).pc = .gone := by
  obtain ⟨h1, -⟩ := run_ok (init_ok n g x) h
  simp only [List.nil_append] at h1
  obtain ⟨i, hi⟩ := List.exists_mem_of_ne_nil _ hf
  have hg := (h1.gone i ((h1.mem i).mp hi)).2
  have hinv := reach_inv hn (reach_net hn ha h)
  have hfin : s.net.main.finished := by
    unfold Net.Inv at hinv
    split at hinv <;> rename_i hm <;> simp only [hm, MPc.finished] <;> exact absurd hg (hinv.1.present i)
  obtain ⟨a, -, c⟩ := inv_finished (i₀ := i₀) hinv hfin
  exact ⟨a, c⟩

/-- Workers that haven't got to their ends. -/
def unended (s : St n P G X) : Nat := (Finset.univ.filter fun i => s.ended i = false).card

theorem unended_lt {s : St n P G X} {i : Fin n} (h : s.ended i = false) (x : X) :
    unended ({ s with ended := Function.update s.ended i true, x := x }) < unended s := by
  unfold unended
  refine Finset.card_lt_card ⟨fun j hj => ?_, fun hs => ?_⟩
  · simp only [Finset.mem_filter, Finset.mem_univ, true_and] at hj ⊢
    by_cases hij : j = i
    · subst hij; exact h
    · rwa [Function.update_of_ne hij] at hj
  · have : i ∈ Finset.univ.filter fun j => s.ended j = false := by simp [h]
    have := hs this
    simp at this

/-- **C136, progress.**  If every sequence of packet handlings is finite, so is every schedule, with the code following the loops included, and
there's always a step to take until the call has returned. -/
theorem C136_returns (hn : 0 < n) (T : Task n P G E) (ep : Fin n → X → X) (i₀ : P) (g : G) (x : X)
    (hb : ∀ y, Bag.Reach T i₀ g y → Acc (fun z y => Bag.Handles T y z) y) (as : List (Act n E)) (ha : ∀ a, .net a ∈ as → a.proper)
    (s : St n P G X) (h : run T ep n (some i₀) as (init n g x) = some s) :
    Acc (fun s' s => Moves T ep n (some i₀) s s') s ∧ (s.net.main ≠ .done → ∃ s', Moves T ep n (some i₀) s s') := by
  have hr := reach_net hn ha h
  refine ⟨?_, fun hd => ?_⟩
  · have hacc := threadStep_acc hn hb s.net hr
    clear h
    generalize hs : s.net = u at hacc hr
    induction hacc generalizing s with
    | intro u _ ih =>
      generalize hm : unended s = m
      induction m using Nat.strong_induction_on generalizing s with
      | _ m ihm =>
        refine Acc.intro _ fun s' hmv => ?_
        rcases hmv with h | ⟨i, h⟩ | ⟨i, h⟩
        · obtain ⟨h1, -⟩ := step_net h
          rw [(Launch.C133_usual hn T i₀ g).2, hs] at h1
          exact ih s'.net (Or.inl h1) s' rfl (threadStep_reach hr (Or.inl h1))
        · obtain ⟨h1, -⟩ := step_net h
          rw [(Launch.C133_usual hn T i₀ g).2, hs] at h1
          exact ih s'.net (Or.inr ⟨i, h1⟩) s' rfl (threadStep_reach hr (Or.inr ⟨i, h1⟩))
        · obtain ⟨-, -, h3, h4⟩ := step_finish h
          subst h4
          exact ihm _ (by rw [← hm]; exact unended_lt h3 _) _ hs rfl
  · by_cases hj : s.net.main = .join ∧ ∃ i : Fin n, i.val < n ∧ s.ended i = false
    · obtain ⟨hj, i, hi, he⟩ := hj
      by_cases hg : (s.net.worker i).pc = .gone
      · refine ⟨{ s with ended := Function.update s.ended i true, x := ep i s.x }, Or.inr (Or.inr ⟨i, ?_⟩)⟩
        simp only [step]
        rw [if_pos ⟨hi, by rw [hg], he⟩]
      · have hinv := reach_inv hn hr
        simp only [Net.Inv, hj] at hinv
        have hsl := (hinv.pcs i).resolve_right hg
        have hsg := hinv.below i hi hsl
        refine ⟨{ s with net := wake s.net i }, Or.inr (Or.inl ⟨i, ?_⟩)⟩
        simp only [step, Launch.step, workerStep, hsl, hsg, if_true, Option.map_some, Bool.false_eq_true, false_and, if_false]
    · rcases C03_no_deadlock hn T i₀ g s.net hr hd with h | ⟨i, h⟩
      · obtain ⟨t, ht⟩ := Option.isSome_iff_exists.mp h
        refine ⟨{ s with net := t }, Or.inl ?_⟩
        simp only [step]
        rw [if_neg, (Launch.C133_usual hn T i₀ g).2, ht]
        · rfl
        · rintro ⟨-, hm, he⟩
          refine hj ⟨?_, he⟩
          cases hmm : s.net.main <;> simp_all
      · obtain ⟨t, ht⟩ := Option.isSome_iff_exists.mp h
        refine ⟨{ s with net := t }, Or.inr (Or.inl ⟨i, ?_⟩)⟩
        simp only [step, Bool.false_eq_true, false_and, if_false]
        rw [(Launch.C133_usual hn T i₀ g).2, ht]
        rfl

/-! ## Sweeping -/

variable {V L : Type}

theorem freeNodes_eq (ms : List (Node V L)) (f : Multiset (V ⊕ L)) : freeNodes ms f = f + objects ms := by
  induction ms generalizing f with
  | nil => simp [freeNodes, objects]
  | cons m ms ih =>
    rw [freeNodes, ih]
    unfold objects
    simp only [List.map_cons, List.flatMap_cons, ← Multiset.coe_add, ← Multiset.cons_coe, ← Multiset.singleton_add]
    abel

theorem sweep_freed (i : Fin n) (x : Store n V L) : (sweep i x).freed = x.freed + contents (x.port i) := by
  unfold sweep contents
  dsimp only
  rw [freeNodes_eq, freeNodes_eq]
  abel

theorem sweeps (l : List (Fin n)) (hl : l.Nodup) (x : Store n V L) :
    (l.foldl (fun x i => sweep i x) x).freed = x.freed + (l.map fun i => contents (x.port i)).sum ∧
    ∀ i, (l.foldl (fun x i => sweep i x) x).port i = if i ∈ l then {} else x.port i := by
  induction l generalizing x with
  | nil => simp
  | cons a l ih =>
    obtain ⟨ha, hl⟩ := List.nodup_cons.mp hl
    obtain ⟨h1, h2⟩ := ih hl (sweep a x)
    have hp : ∀ i, i ≠ a → (sweep a x).port i = x.port i := fun i hi => by simp [sweep, hi]
    refine ⟨?_, fun i => ?_⟩
    · rw [List.foldl_cons, h1, sweep_freed, List.map_cons, List.sum_cons, add_assoc]
      congr 2
      refine congrArg List.sum (List.map_congr_left fun i hi => ?_)
      rw [hp i (fun e => ha (e ▸ hi))]
    · rw [List.foldl_cons, h2]
      by_cases hi : i ∈ l
      · simp [hi]
      · by_cases hia : i = a
        · subst hia; simp [sweep]
        · simp [hi, hia, hp]

theorem contents_empty : contents ({} : Left V L) = 0 := by simp [contents, objects]

theorem sum_univ (f : Fin n → Multiset (V ⊕ L)) : ((List.finRange n).map f).sum = ∑ i, f i := by
  rw [← List.ofFn_eq_map, List.sum_ofFn]

/-- Sweeping whatever hasn't been swept. -/
theorem sweepAll_rest (l : List (Fin n)) (hl : l.Nodup) (x : Store n V L) :
    (sweepAll (l.foldl (fun x i => sweep i x) x)).freed = x.freed + ∑ i, contents (x.port i) ∧
    ∀ i, (sweepAll (l.foldl (fun x i => sweep i x) x)).port i = {} := by
  obtain ⟨h1, h2⟩ := sweeps l hl x
  obtain ⟨h3, h4⟩ := sweeps (List.finRange n) (List.nodup_finRange n) (l.foldl (fun x i => sweep i x) x)
  refine ⟨?_, fun i => by unfold sweepAll; rw [h4, if_pos (List.mem_finRange i)]⟩
  unfold sweepAll
  rw [h3, h1, sum_univ, add_assoc]
  congr 1
  have : ∀ i, contents ((l.foldl (fun x i => sweep i x) x).port i) = if i ∈ l then 0 else contents (x.port i) := by
    intro i
    rw [h2]
    split_ifs
    · exact contents_empty
    · rfl
  rw [Finset.sum_congr rfl fun i _ => this i, ← List.sum_toFinset _ hl]
  have hs : ∀ i, contents (x.port i) = (if i ∈ l.toFinset then contents (x.port i) else 0) + if i ∈ l then 0 else contents (x.port i) := by
    intro i
    by_cases hi : i ∈ l <;> simp [hi]
  rw [Finset.sum_congr (s₁ := Finset.univ) (g := _) rfl fun i _ => hs i, Finset.sum_add_distrib, ← Finset.sum_filter]
  congr 1
  refine Finset.sum_congr ?_ fun _ _ => rfl
  ext i; simp

/-- **C136, swept.**  When an operation's workers have left vertices and edges to be freed, each vertex and label left is freed exactly once by the
time the call returns and nothing else is, whatever the schedule, the number of threads that can be created and the allocations that
fail.  If the router is still in use, nothing is freed. -/
theorem C136_swept (mem : Nat → Bool) (shared : Nat) (err : Int) (x y : Store n V L) (h : Swept mem shared err x y) :
    (shared = 0 → y.freed = x.freed + ∑ i, contents (x.port i) ∧ ∀ i, y.port i = {}) ∧ (shared ≠ 0 → y = x) := by
  have hall := sweepAll_rest [] List.nodup_nil x
  cases h with
  | shared h => exact ⟨fun h' => absurd h' h, fun _ => rfl⟩
  | nothing h hs =>
    refine ⟨fun _ => ?_, fun h' => absurd h h'⟩
    have : ∀ i, x.port i = {} := by
      intro i
      have : ¬ ((x.port i).survivors ≠ [] ∨ (x.port i).deletions ≠ [] ∨ (x.port i).disconnections ≠ []) := fun h => hs ⟨i, h⟩
      push Not at this
      obtain ⟨a, b, c⟩ := this
      cases hp : x.port i
      rw [hp] at a b c
      simp only at a b c
      subst a; subst b; subst c; rfl
    refine ⟨?_, this⟩
    rw [Finset.sum_congr rfl fun i _ => by rw [this i, contents_empty]]
    simp
  | alone h => exact ⟨fun _ => hall, fun h' => absurd h h'⟩
  | launched hn as s h _ _ _ ha hr hd =>
    refine ⟨fun _ => ?_, fun h' => absurd h h'⟩
    obtain ⟨h1, -, h3, h4⟩ := C136_once _ _ _ _ _ _ _ _ hr
    obtain ⟨a, b⟩ := sweeps (finished as) h1 x
    rw [h3]
    have hm : ∀ i, i ∈ finished as := fun i => h4 hd i i.isLt
    refine ⟨?_, fun i => by rw [b, if_pos (hm i)]⟩
    rw [a, ← List.sum_toFinset _ h1]
    congr 2
    ext i; simp [hm]
  | unlaunched k p as s h _ _ _ _ _ ha hr hd =>
    refine ⟨fun _ => ?_, fun h' => absurd h h'⟩
    obtain ⟨h1, -, h3, -⟩ := C136_once _ _ _ _ _ _ _ _ hr
    rw [h3]
    exact sweepAll_rest (finished as) h1 x

/-- **C136, sweeping returns.**  Every schedule of the workers that sweep is finite, and there's always a step to take until the call has
returned, whichever packets there's no storage for. -/
theorem C136_ping (hn : 0 < n) (mem : Nat → Bool) (x : Store n V L) (as : List (Act n Unit)) (ha : ∀ a, .net a ∈ as → a.proper)
    (s : St n (Fin n) Nat (Store n V L)) (h : run (ping mem) sweep n (some ⟨0, hn⟩) as (init n 0 x) = some s) :
    Acc (fun s' s => Moves (ping mem) sweep n (some ⟨0, hn⟩) s s') s ∧
      (s.net.main ≠ .done → ∃ s', Moves (ping mem) sweep n (some ⟨0, hn⟩) s s') := by
  refine C136_returns hn _ _ _ _ _ (fun y _ => ?_) as ha s h
  let T' : Task n (Fin n) Nat Unit := { ping mem with handle := fun _ g p => (ping mem).handle p g p }
  refine acc_of_rank T' (fun p => n - p.val) (fun i g p => ⟨?_, fun q hq => ?_⟩) y
  · simp only [T', ping]
    split_ifs <;> rfl
  · simp only [T', ping] at hq
    split_ifs at hq with h1 h2
    · rw [List.mem_singleton] at hq
      subst hq
      dsimp only
      omega
    · cases hq
    · cases hq

/-! ## An example -/

/-- A schedule: whoever comes first of those that can take a step. -/
def greedy (mem : Nat → Bool) (k : Nat) (p : Option (Fin n)) : Nat → St n (Fin n) Nat (Store n V L) → List (Act n Unit)
  | 0, _ => []
  | f + 1, s =>
    let as := (List.finRange n).map Act.finish ++ (List.finRange n).map (fun i => .net (.worker i)) ++ [.net .main]
    match as.find? fun a => (step (ping mem) sweep k p a s).isSome with
    | none => []
    | some a =>
      match step (ping mem) sweep k p a s with
      | none => []
      | some t => a :: greedy mem k p f t

/-- Two ports, with vertices 10 and 11 and labels 20 to 23 left in them. -/
def demo : Store 2 Nat Nat where
  port i := if i = 0 then { survivors := [⟨10, [20, 21]⟩] } else { disconnections := [22], deletions := [⟨11, [23]⟩] }
  freed := 0

/-- The hypotheses are met, with all threads and with one of two. -/
example :
    (run (ping fun _ => true) sweep 2 (some 0) (greedy (fun _ => true) 2 (some 0) 100 (init 2 0 demo)) (init 2 0 demo)).map
      (fun s => (s.net.main, s.x.freed, s.net.g)) = some (.done, {.inl 10, .inl 11, .inr 20, .inr 21, .inr 22, .inr 23}, 1) ∧
    (run (ping fun _ => true) sweep 1 none (greedy (fun _ => true) 1 none 100 (init 1 0 demo)) (init 1 0 demo)).map
      (fun s => (s.net.main, s.x.freed, s.net.g)) = some (.done, {.inl 10, .inr 20, .inr 21}, 0) := by
  decide +kernel

end Cru.Sweep
