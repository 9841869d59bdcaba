import Verif.Proofs.InduceEnd
import Verif.Proofs.Deduce
import Verif.Proofs.Trav
import Verif.Proofs.TravKill
import Verif.Proofs.Demo

/-! # C19 and C80-C83: induction -/

namespace Cru.Induce

open Net

variable {n : Nat} {N V L A : Type} [DecidableEq N]

/-- The edges that are followed. -/
abbrev arcs (g : Gr N V L) (backwards : Bool) : N → List (L × N) := fun m => if backwards then g.inn m else g.out m

theorem analyzed_complete {g : Gr N V L} {backwards : Bool} {b : N} {hash : N → Nat} {hn : 0 < n} {reach : Fin n → Option (List N)}
    (h : Analyzed g backwards b hash hn 0 reach) :
    ∀ m, Reaches (pre (arcs g backwards)) b m → Complete (fun m => Build.lane hn (hash m)) reach m := by
  intro m hm l hl
  rcases h with ⟨-, rfl⟩ | ⟨-, z, hz, hd, hk, rfl⟩
  · cases hl
  · have hb := reach_bag hn hz
    have hp := (inv_finished (i₀ := b) (reach_inv hn hz) (by rw [hd]; trivial)).1
    rw [hp] at hb
    let W := Trav.walker (n := n) (S := Unit) (g.next backwards) (fun _ s _ => (s, 0)) hash hn
    have h2 : W.Inv b z.g 0 := by exact Walker.inv_reach (g₀ := Trav.start ()) (fun i => rfl) (z.g, 0) hb
    have herr : ∀ i, z.g.err i = 0 := by
      exact Trav.induct (motive := fun _ err _ => ∀ i, err i = 0) (fun _ => rfl) (fun seen err mem m h _ _ _ i => by
        by_cases hi : i = Build.lane hn (hash m)
        · subst hi; rw [Function.update_self]
        · rw [Function.update_of_ne hi]; exact h i) _ hb
    have h3 := (Walker.visited_iff h2 (fun i => ⟨herr i, Trav.stop_inv _ hb hk i⟩) m).2 hm
    obtain ⟨i, hi⟩ := Walker.mem_visited.1 h3
    have hl' : Build.lane hn (hash m) = i := h2.home i m hi
    have hi' : m ∈ z.g.seen i := hi
    simp only [hl'] at hl
    split at hl
    · cases hl
    · obtain rfl := Option.some.inj hl
      exact hi'

variable {g : Gr N V L} {backwards : Bool} {b : N} {d : Inducer V L A} {nil : A} {hash : N → Nat} {hn : 0 < n}
  {k₂ k₃ : Nat} {s : Job n N A} {r : Except Int A}

theorem induces_inv (h : Induces g backwards b d nil hash hn 0 k₂ k₃ s r) :
    Inv d g.vertex (arcs g backwards) b (fun m => Build.lane hn (hash m)) s 0 ∧ s.killed = k₂ ∧ outcome nil s k₃ r := by
  obtain ⟨reach, ha, z, hz, hd, rfl, hk, ho⟩ := h
  have hb := reach_bag hn hz
  have hp := (inv_finished (i₀ := b) (reach_inv hn hz) (by rw [hd]; trivial)).1
  rw [hp] at hb
  exact ⟨inv_bag (analyzed_complete ha) _ hb, hk, ho⟩

/-- In the end, if there's been neither an error nor a kill, there's a result. -/
theorem Inv.complete (hi : Inv d g.vertex (arcs g backwards) b (fun m => Build.lane hn (hash m)) s 0) (he : ∀ i, s.err i = 0)
    (hk : s.killed = 0) : ∃ a, s.result (Build.lane hn (hash b)) = some a ∧ (List.finRange n).findSome? s.result = some a := by
  have hoff : ∀ i, s.off i ≠ true := fun i h => by
    obtain ⟨j, h1 | h1⟩ := hi.off i h
    · exact h1 (he j)
    · exact hi.stop j h1 hk
  have hseen : b ∈ s.seen (Build.lane hn (hash b)) := by
    rcases hi.root with h1 | h1 | h1
    · exact h1
    · simp at h1
    · exact absurd h1 (hoff _)
  have hres : (s.result (Build.lane hn (hash b))).isSome := by
    rcases hi.pend b hseen with h1 | h1 | h1 | h1
    · exact absurd rfl (hi.visitedNe _ _ h1)
    · exact h1.2
    · simp at h1
    · exact absurd h1 (hoff _)
  obtain ⟨a, ha⟩ := Option.isSome_iff_exists.1 hres
  refine ⟨a, ha, ?_⟩
  rcases hf : (List.finRange n).findSome? s.result with _ | a'
  · rw [List.findSome?_eq_none_iff] at hf
    rw [hf _ (List.mem_finRange _)] at ha
    cases ha
  · obtain ⟨i, -, h2⟩ := List.exists_of_findSome?_eq_some hf
    obtain ⟨rfl, -⟩ := hi.result i a' h2
    rw [ha] at h2
    exact h2.symm ▸ rfl

/-- C19: unless it's killed, `cru_induced` returns the value that the initial vertex has according to its prerequisites, or an
error that occurs in the evaluation of some vertex the initial vertex depends on. -/
theorem C19_value (h : Induces g backwards b d nil hash hn 0 0 0 s r) :
    (∀ a, r = .ok a → Has d g.vertex (arcs g backwards) b a) ∧
    ∀ e, r = .error e → ∃ m x, Reaches (g.next backwards) b m ∧ Fails d g.vertex (arcs g backwards) m x ∧ e = x.1 := by
  obtain ⟨hi, hk, ho⟩ := induces_inv h
  rcases ho with ⟨i, h1, rfl⟩ | ⟨h1, rfl⟩
  · refine ⟨fun a e => (by cases e), fun e he => ?_⟩
    obtain ⟨-, m, x, h2, h3, h4⟩ := hi.err i h1
    exact ⟨m, x, h2, h3, by rw [← h4]; cases he; rfl⟩
  · obtain ⟨a, h2, h3⟩ := hi.complete h1 hk
    rw [if_neg (by simp), h3]
    refine ⟨fun a' e => ?_, fun e he => (by cases he)⟩
    cases e
    exact (hi.result _ _ h2).2.1

/-- C19: no vertex is evaluated twice or before its prerequisites, and none that the initial vertex doesn't depend on.  If there's
a result, all the others are evaluated.  This holds even if the job is killed while it's evaluating vertices. -/
theorem C19_once (h : Induces g backwards b d nil hash hn 0 k₂ k₃ s r) :
    s.log.Nodup ∧ InOrder (g.next backwards) s.log.reverse ∧ (∀ m ∈ s.log, Reaches (g.next backwards) b m) ∧
    (k₂ = 0 → ∀ a, r = .ok a → ∀ m, Reaches (g.next backwards) b m → m ∈ s.log) := by
  obtain ⟨hi, hk, ho⟩ := induces_inv h
  refine ⟨hi.logNodup, hi.logOrder, hi.logReach, fun h0 a ha m hm => ?_⟩
  subst ha
  rcases ho with ⟨i, h1, h2⟩ | ⟨h1, h2⟩
  · cases h2
  · obtain ⟨a', h3, h4⟩ := hi.complete h1 (hk.trans h0)
    have hr := (hi.result _ _ h3).2.2
    suffices m = b ∨ m ∈ s.visited (Build.lane hn (hash m)) by
      rcases this with rfl | h5
      · exact hi.logBase (by rw [h3]; rfl)
      · exact hi.logVisited _ _ h5
    induction hm with
    | refl => exact .inl rfl
    | tail _ hb ih =>
      rcases ih with rfl | h5
      · exact .inr (hr _ hb)
      · exact .inr (hi.closed _ _ h5 _ hb)

/-- The threads' turns don't bring about a kill, nor do they change what a worker makes of disabled ports. -/
theorem handle_calm {reach : Fin n → Option (List N)} {vertex : N → V} {arcs : N → List (L × N)} (i : Fin n) (s : Job n N A) (m : N) :
    (handle (fun m => Build.lane hn (hash m)) reach d vertex arcs b i s m).1.killed = s.killed := by
  have hp : ∀ s : Job n N A, (poll s i).killed = s.killed := fun s => by
    obtain ⟨sample, stop, e, -⟩ := poll_eq s i
    rw [e]
  have ht : ∀ s : Job n N A, (try1 (fun m => Build.lane hn (hash m)) reach d vertex arcs b i s m).1.killed = s.killed := by
    intro s
    unfold try1 visit
    dsimp only
    repeat' split
    all_goals rfl
  unfold handle
  dsimp only
  repeat' split
  all_goals first | exact hp s | (rw [ht]; exact hp s)

/-- C19: if the initial vertex doesn't depend on itself, nor does any vertex it depends on, then the evaluation ends no matter how
threads are scheduled, if none of them is starved.  It does so from every state it may get into, killed or not. -/
theorem C19_ends {reach : Fin n → Option (List N)} (ha : Analyzed g backwards b hash hn 0 reach) (d : Inducer V L A) (nil : A)
    (hac : Acyclic (g.next backwards) b) (hf : ∀ m, Reaches (g.next backwards) b m → m ∈ g.nodes)
    {z : State n N (Job n N A)} (hz : Reach (task reach d g.vertex (arcs g backwards) b hash hn) b (start nil) z)
    (hs : ∀ i j, z.g.stale i j = false) {who : Nat → Option (Fin n)} (hw : FairSchedule who) :
    ∃ k, (scheduled (task reach d g.vertex (arcs g backwards) b hash hn) b who z k).main = .done :=
  fair_done (α := Nat ×ₗ Nat) (fun a => lt_irrefl a) hn
    (advances (nil := nil) (analyzed_complete ha) hac g.nodes hf) hw z hz ⟨reach_bag hn hz, hs⟩

omit [DecidableEq N] in
theorem outcome_total (nil : A) (s : Job n N A) (k : Nat) : ∃ r, outcome nil s k r := by
  by_cases h : ∃ i, s.err i ≠ 0
  · obtain ⟨i, hi⟩ := h
    exact ⟨_, .inl ⟨i, hi, rfl⟩⟩
  · push Not at h
    exact ⟨_, .inr ⟨h, rfl⟩⟩

/-- Evaluations that aren't killed exist. -/
theorem C19_exists (hac : Acyclic (g.next backwards) b) (hf : ∀ m, Reaches (g.next backwards) b m → m ∈ g.nodes)
    (d : Inducer V L A) (nil : A) (hash : N → Nat) (hn : 0 < n) : ∃ s r, Induces g backwards b d nil hash hn 0 0 0 s r := by
  obtain ⟨reach, ha⟩ : ∃ reach, Analyzed g backwards b hash hn 0 reach := by
    by_cases hb : b = g.base
    · exact ⟨_, .inl ⟨hb, rfl⟩⟩
    · obtain ⟨-, x, h1, h2, h3⟩ := Trav.ends (n := n) (S := Unit) (fun _ s _ => (s, 0)) hash hn () hf
      exact ⟨_, .inr ⟨hb, x, h1, h2, h3, rfl⟩⟩
  obtain ⟨k, hk⟩ := C19_ends ha d nil hac hf (z := init (start nil)) .init (fun _ _ => rfl) (rounds_fair n)
  have hkill := scheduled_keep (T := task reach d g.vertex (arcs g backwards) b hash hn) (i₀ := b) (who := rounds n) (s := init (start nil))
    (fun s => s.killed = 0) (fun i s p h => (handle_calm i s p).trans h) rfl k
  obtain ⟨r, hr⟩ := outcome_total nil (scheduled (task reach d g.vertex (arcs g backwards) b hash hn) b (rounds n) (init (start nil)) k).g 0
  exact ⟨_, r, reach, ha, _, scheduled_reach .init k, hk, rfl, hkill, hr⟩

/-- C80: if the initial vertex depends on a vertex that depends on itself, and no user function fails, evaluation goes on forever
unless it's killed. -/
theorem C80_cyclic {reach : Fin n → Option (List N)} (ha : Analyzed g backwards b hash hn 0 reach)
    (hc : ¬ Acyclic (g.next backwards) b) (hok : ∀ v es x, local_ d v es ≠ .error x)
    {z : State n N (Job n N A)} (hz : Reach (task reach d g.vertex (arcs g backwards) b hash hn) b (start nil) z)
    (hk : z.g.killed = 0) : z.main ≠ .done := by
  intro hd
  have hb := reach_bag hn hz
  have hp := (inv_finished (i₀ := b) (reach_inv hn hz) (by rw [hd]; trivial)).1
  rw [hp] at hb
  have hi := inv_bag (d := d) (vertex := g.vertex) (analyzed_complete ha) _ hb
  have he : ∀ i, z.g.err i = 0 := fun i => by
    by_contra hne
    obtain ⟨-, m, x, -, ⟨val, -, h2⟩, -⟩ := hi.err i hne
    exact hok _ _ _ h2
  obtain ⟨a, h1, -⟩ := hi.complete he hk
  refine hc fun m hm => ?_
  obtain ⟨a', h2⟩ := (hi.result _ _ h1).2.1.closed hm
  exact h2.acyclic

/-- What C81 says in general: a kill during the evaluation is never reported.  The call returns whatever it has, or the error of a
user function. -/
theorem C81_unreported (h : Induces g backwards b d nil hash hn 0 k₂ 0 s r) :
    (∀ e, r = .error e → ∃ m x, Reaches (g.next backwards) b m ∧ Fails d g.vertex (arcs g backwards) m x ∧ e = x.1) ∧
    ∀ a, r = .ok a → a = nil ∨ Has d g.vertex (arcs g backwards) b a := by
  obtain ⟨hi, hk, ho⟩ := induces_inv h
  rcases ho with ⟨i, h1, rfl⟩ | ⟨h1, rfl⟩
  · refine ⟨fun e he => ?_, fun a e => (by cases e)⟩
    obtain ⟨-, m, x, h2, h3, h4⟩ := hi.err i h1
    exact ⟨m, x, h2, h3, by rw [← h4]; cases he; rfl⟩
  · refine ⟨fun e he => (by simp at he), fun a ha => ?_⟩
    simp only [ne_eq, not_true_eq_false, if_false, Except.ok.injEq] at ha
    rcases hf : (List.finRange n).findSome? s.result with _ | a'
    · rw [hf] at ha; exact .inl ha.symm
    · rw [hf] at ha
      obtain ⟨i, -, h2⟩ := List.exists_of_findSome?_eq_some hf
      right
      rw [← ha]
      exact (hi.result i a' h2).2.1

/-- Few vertices are evaluated once the kill flag is set. -/
def Few (s : Job n N A) : Prop :=
  s.killed ≠ 0 ∧ ∀ i, (s.visited i).length ≤ s.sample i ∧ (s.visited i).length ≤ 31 ∧ (s.stop i = false → s.sample i ≤ 31)

/-- The job is killed at once. -/
def struck (nil : A) : State n N (Job n N A) := { init (start nil : Job n N A) with g := { (start nil : Job n N A) with killed := 1 } }

omit [DecidableEq N] in
theorem few_start (nil : A) : Few { (start nil : Job n N A) with killed := 1 } :=
  ⟨Nat.one_ne_zero, fun _ => ⟨Nat.zero_le _, Nat.zero_le _, fun _ => Nat.zero_le _⟩⟩

theorem few_handle {reach : Fin n → Option (List N)} {vertex : N → V} {arcs : N → List (L × N)} (i : Fin n) (s : Job n N A) (m : N)
    (h : Few s) : Few (handle (fun m => Build.lane hn (hash m)) reach d vertex arcs b i s m).1 := by
  -- polling leaves room for one more unless it stops the worker
  have hp : Few (poll s i) ∧ ((poll s i).stop i = false → ((poll s i).visited i).length + 1 ≤ (poll s i).sample i ∧ (poll s i).sample i ≤ 31) := by
    unfold poll
    by_cases c : s.stop i = true
    · rw [if_pos c]; exact ⟨h, fun h' => by rw [c] at h'; cases h'⟩
    · rw [if_neg c]
      have hc : s.stop i = false := by simpa using c
      obtain ⟨h1, h2, h3⟩ := h.2 i
      have h3' := h3 hc
      refine ⟨⟨h.1, fun j => ?_⟩, fun hst => ?_⟩
      · by_cases hj : j = i
        · subst hj
          simp only [Function.update_self]
          refine ⟨by omega, h2, fun hst => ?_⟩
          have hk := h.1
          by_contra hlt
          have : (s.sample j + 1) % 32 = 0 := by omega
          simp [this, hk] at hst
        · simp only [Function.update_of_ne hj]; exact h.2 j
      · simp only [Function.update_self] at hst ⊢
        refine ⟨by omega, ?_⟩
        have hk := h.1
        by_contra hlt
        have : (s.sample i + 1) % 32 = 0 := by omega
        simp [this, hk] at hst
  have hv : ∀ u : Job n N A, Few u → (u.stop i = false → (u.visited i).length + 1 ≤ u.sample i ∧ u.sample i ≤ 31) → u.stop i = false →
      Few (try1 (fun m => Build.lane hn (hash m)) reach d vertex arcs b i u m).1 := by
    intro u hu hr hst
    unfold try1 visit
    dsimp only
    repeat' split
    all_goals first
      | exact ⟨hu.1, hu.2⟩
      | (refine ⟨hu.1, fun j => ?_⟩
         by_cases hj : j = i
         · subst hj
           simp only [Function.update_self, List.length_append, List.length_singleton]
           have := hr hst
           exact ⟨by omega, by omega, fun _ => this.2⟩
         · simp only [Function.update_of_ne hj]; exact hu.2 j)
  unfold handle
  dsimp only
  by_cases c1 : (poll s i).off i = true
  · rw [if_pos c1]; exact hp.1
  rw [if_neg c1]
  by_cases c2 : (poll s i).err i ≠ 0 ∨ (poll s i).stop i = true
  · rw [if_pos c2]; exact ⟨hp.1.1, hp.1.2⟩
  rw [if_neg c2]
  rw [not_or] at c2
  have hst : (poll s i).stop i = false := by simpa using c2.2
  by_cases c3 : m ∈ (poll s i).visited i
  · rw [if_pos c3]; exact hp.1
  rw [if_neg c3]
  by_cases c4 : m ∈ (poll s i).seen i
  · rw [if_pos c4]; exact hv _ hp.1 hp.2 hst
  · rw [if_neg c4]; exact hv _ ⟨hp.1.1, hp.1.2⟩ hp.2 hst

/-- C81: killing an evaluation makes it return null without an error, if the initial vertex has enough prerequisites. -/
theorem C81_kill_lost (hac : Acyclic (g.next backwards) g.base) (hf : ∀ m, Reaches (g.next backwards) g.base m → m ∈ g.nodes)
    (hok : ∀ v es x, local_ d v es ≠ .error x) (nil : A) (hash : N → Nat) (hn : 0 < n) {ms : List N} (hd : ms.Nodup)
    (hms : ∀ m ∈ ms, m ∈ g.next backwards g.base) (hl : 31 * n < ms.length) :
    ∃ s k, k ≠ 0 ∧ Induces g backwards g.base d nil hash hn 0 k 0 s (.ok nil) := by
  have ha : Analyzed g backwards g.base hash hn 0 (fun _ => none) := .inl ⟨rfl, rfl⟩
  have h1 : Reach (task (fun _ => none) d g.vertex (arcs g backwards) g.base hash hn) g.base (start nil)
      (struck nil) := .step (.env none) trivial .init rfl
  obtain ⟨k, hk⟩ := C19_ends ha d nil hac hf h1 (fun _ _ => rfl) (rounds_fair n)
  have hfew := scheduled_keep (T := task (fun _ => none) d g.vertex (arcs g backwards) g.base hash hn) (i₀ := g.base) (who := rounds n)
    (s := (struck nil)) Few (fun i s p h => few_handle (b := g.base) i s p h)
    (few_start nil) k
  have hr := scheduled_reach (who := rounds n) h1 k
  have hb := reach_bag hn hr
  have hp := (inv_finished (i₀ := g.base) (reach_inv hn hr) (by rw [hk]; trivial)).1
  rw [hp] at hb
  have hi := inv_bag (d := d) (vertex := g.vertex) (analyzed_complete ha) _ hb
  refine ⟨_, _, hfew.1, _, ha, _, hr, hk, rfl, rfl, .inr ⟨fun i => ?_, ?_⟩⟩
  · by_contra hne
    obtain ⟨-, m, x, -, ⟨val, -, h2⟩, -⟩ := hi.err i hne
    exact hok _ _ _ h2
  · have : (List.finRange n).findSome? (scheduled (task (fun _ => none) d g.vertex (arcs g backwards) g.base hash hn) g.base (rounds n) (struck nil) k).g.result = none := by
      rw [List.findSome?_eq_none_iff]
      intro i _
      by_contra hne
      obtain ⟨a, ha'⟩ := Option.ne_none_iff_exists'.1 hne
      have hall := (hi.result i a ha').2.2
      obtain ⟨m, h2, h3⟩ := Trav.one_unvisited (fun i => (hfew.2 i).2.1) hd hl
      exact h3 _ (hall m (hms m h2))
    rw [this]; simp

/-- Nothing is stored at nodes that haven't been visited. -/
theorem acc_nil {reach : Fin n → Option (List N)} {vertex : N → V} {arcs : N → List (L × N)} :
    ∀ x, Bag.Reach (task reach d vertex arcs b hash hn) b (start nil) x → ∀ m, m ∉ x.1.visited (Build.lane hn (hash m)) → x.1.acc m = nil := by
  intro x hx
  induction hx with
  | init => intro m _; rfl
  | step hr hs ih =>
    cases hs with
    | env e s m => rcases e with _ | v <;> exact ih
    | handle s p rest =>
      show ∀ m, m ∉ (handle _ reach d vertex arcs b (Build.lane hn (hash p)) s p).1.visited _ → (handle _ reach d vertex arcs b (Build.lane hn (hash p)) s p).1.acc m = nil
      have hp : ∀ m, m ∉ (poll s (Build.lane hn (hash p))).visited (Build.lane hn (hash m)) → (poll s (Build.lane hn (hash p))).acc m = nil := by
        obtain ⟨sample, stop, e, -⟩ := poll_eq s (Build.lane hn (hash p))
        rw [e]; exact ih
      have ht : ∀ u : Job n N A, (∀ m, m ∉ u.visited (Build.lane hn (hash m)) → u.acc m = nil) →
          ∀ m, m ∉ (try1 (fun m => Build.lane hn (hash m)) reach d vertex arcs b (Build.lane hn (hash p)) u p).1.visited (Build.lane hn (hash m)) →
            (try1 (fun m => Build.lane hn (hash m)) reach d vertex arcs b (Build.lane hn (hash p)) u p).1.acc m = nil := by
        intro u hu
        unfold try1 visit
        dsimp only
        repeat' split
        all_goals first
          | exact hu
          | (dsimp only
             intro m hm
             by_cases e : m = p
             · subst e
               rw [Function.update_self] at hm
               exact absurd (List.mem_append_right _ (List.mem_singleton_self _)) hm
             · rw [Function.update_of_ne e]
               refine hu m fun h => hm ?_
               by_cases hj : Build.lane hn (hash m) = Build.lane hn (hash p)
               · rw [hj, Function.update_self]; rw [hj] at h; exact List.mem_append_left _ h
               · rw [Function.update_of_ne hj]; exact h)
      unfold handle
      dsimp only
      repeat' split
      all_goals first | exact hp | exact ht _ hp

/-- C83: when the traversal that disposes of intermediate values has ended, every value computed for a vertex other than the
initial one has been disposed of exactly once, and none is left.  This includes those computed before an error or a kill. -/
theorem C83_disposal [DecidableEq A] (h : Induces g backwards b d nil hash hn 0 k₂ k₃ s r) {z : State n N (Disposal n N A)}
    (hz : Reach (deduction (g.next backwards) nil hash hn) b ⟨fun _ => [], s.acc, []⟩ z) (hd : z.main = .done) :
    (z.g.freed.map Prod.fst).Nodup ∧
    (∀ m a, (m, a) ∈ z.g.freed → m ∈ s.log ∧ m ≠ b ∧ Has d g.vertex (arcs g backwards) m a) ∧
    (∀ m ∈ s.log, m ≠ b → ∀ a, Has d g.vertex (arcs g backwards) m a → a ≠ nil → (m, a) ∈ z.g.freed) ∧
    ∀ m, z.g.acc m = nil := by
  obtain ⟨reach, ha, y, hy, hyd, rfl, hk, ho⟩ := h
  have hb := reach_bag hn hy
  have hp := (inv_finished (i₀ := b) (reach_inv hn hy) (by rw [hyd]; trivial)).1
  rw [hp] at hb
  have hi := inv_bag (analyzed_complete ha) _ hb
  have hnil := acc_nil _ hb
  obtain ⟨h1, h2, h3⟩ := disposed_done hz hd
  have hvis : ∀ m, y.g.acc m ≠ nil → m ∈ y.g.visited (Build.lane hn (hash m)) := fun m hm => by
    by_contra hc
    exact hm (hnil m hc)
  refine ⟨h1, fun m a hm => ?_, fun m hm hne a h5 h6 => ?_, fun m => ?_⟩
  · obtain ⟨-, rfl, h5⟩ := (h2 m a).1 hm
    have := hvis m h5
    exact ⟨hi.logVisited _ _ this, hi.visitedNe _ _ this, hi.value _ _ this⟩
  · rcases hi.logMem m hm with h4 | h4 | h4
    · exact (h2 m a).2 ⟨hi.logReach m hm, (hi.value _ _ h4).unique h5 |>.symm, h6⟩
    · exact absurd h4.1 hne
    · obtain ⟨-, x, val, h7, h8⟩ := h4
      cases h5 with
      | intro _ _ val' h9 h10 =>
        have : (arcs g backwards m).map (fun e => (e.1, val e.2)) = (arcs g backwards m).map (fun e => (e.1, val' e.2)) :=
          List.map_congr_left fun e he => by rw [(h7 e he).unique (h9 e he)]
        rw [this, h10] at h8
        cases h8
  · by_cases hm : Reaches (g.next backwards) b m
    · exact (h3 m).1 hm
    · rw [(h3 m).2 hm]
      by_contra hc
      exact hm (hi.home _ m (hi.visitedSeen _ _ (hvis m hc))).2

/-! ## Concrete cases -/

/-- The number of paths from a vertex to vertices without successors and to itself. -/
def paths : Inducer Nat Nat Nat := ⟨none, some (.ok 1), fun _ _ a => .ok a, fun a r => .ok (a + r)⟩

theorem paths_ok : ∀ v es x, local_ paths v es ≠ .error x := by
  intro v es x
  have h : ∀ es (r : Nat), ∃ a, foldFrom paths v r es = .ok a := by
    intro es
    induction es with
    | nil => exact fun r => ⟨r, rfl⟩
    | cons e es ih => exact fun r => ih (e.2 + r)
  obtain ⟨a, ha⟩ := h es 1
  have : local_ paths v es = .ok a := by
    cases es with
    | nil => exact ha
    | cons e es => exact ha
  rw [this]
  exact fun h => by cases h

/-- Two ways from 0 to 3. -/
def kite : Gr Nat Nat Nat where
  nodes := [0, 1, 2, 3]
  base := 0
  vertex m := m
  out m := if m = 0 then [(0, 1), (1, 2)] else if m = 1 ∨ m = 2 then [(2, 3)] else []
  inn _ := []

theorem acyclic_of_lt {next : Nat → List Nat} (h : ∀ m, ∀ t ∈ next m, m < t) (b : Nat) : Acyclic next b := by
  intro m _ hc
  have : ∀ a c, Relation.TransGen (fun x y => y ∈ next x) a c → a < c := by
    intro a c hac
    induction hac with
    | single h1 => exact h _ _ h1
    | tail _ h1 ih => exact Nat.lt_trans ih (h _ _ h1)
  exact Nat.lt_irrefl m (this m m hc)

theorem kite_wf : kite.WF := wf_range (k := 4) rfl rfl (by decide) (by decide) (by decide)

theorem kite_acyclic (b : Nat) : Acyclic (kite.next false) b := by
  refine acyclic_of_lt (fun m t ht => ?_) b
  simp only [Gr.next, kite, Bool.false_eq_true, if_false] at ht
  split at ht
  · simp at ht; omega
  · split at ht
    · simp at ht; omega
    · simp at ht

/-- With two workers, the value at the base vertex is 5, and all four vertices have been evaluated. -/
example : ∃ s r, Induces kite false 0 paths 0 (fun m => m) Nat.zero_lt_two 0 0 0 s r ∧ r = .ok 5 ∧ s.log.length = 4 := by
  obtain ⟨s, r, h⟩ := C19_exists (backwards := false) (kite_acyclic 0) (fun m hm => (kite_wf.reach m).2 hm) paths 0 (fun m => m) Nat.zero_lt_two
  refine ⟨s, r, h, ?_⟩
  obtain ⟨h1, h2⟩ := C19_value h
  have h3 : Has paths kite.vertex (arcs kite false) 3 1 := .intro 3 1 (fun _ => 0) (by simp [arcs, kite]) rfl
  have h4 : ∀ m, m = 1 ∨ m = 2 → Has paths kite.vertex (arcs kite false) m 2 := fun m hm => by
    refine .intro m 2 (fun _ => 1) ?_ ?_
    · rcases hm with rfl | rfl <;> (intro e he; simp [arcs, kite] at he; subst he; exact h3)
    · rcases hm with rfl | rfl <;> rfl
  have h5 : Has paths kite.vertex (arcs kite false) 0 5 := by
    refine .intro 0 5 (fun _ => 2) ?_ rfl
    intro e he
    simp [arcs, kite] at he
    rcases he with rfl | rfl
    · exact h4 1 (.inl rfl)
    · exact h4 2 (.inr rfl)
  rcases r with e | a
  · obtain ⟨m, x, -, ⟨val, -, h6⟩, -⟩ := h2 e rfl
    exact absurd h6 (paths_ok _ _ _)
  · obtain rfl := (h1 a rfl).unique h5
    refine ⟨rfl, ?_⟩
    obtain ⟨h6, -, h7, h8⟩ := C19_once h
    have : s.log.Perm kite.nodes := (List.perm_ext_iff_of_nodup h6 kite_wf.nodup).2 fun m =>
      ⟨fun hm => (kite_wf.reach m).2 (h7 m hm), fun hm => h8 rfl _ rfl m ((kite_wf.reach m).1 hm)⟩
    exact this.length_eq

/-- The values of three of them are disposed of. -/
example : ∃ s r, Induces kite false 0 paths 0 (fun m => m) Nat.zero_lt_two 0 0 0 s r ∧
    ∃ z, Reach (deduction (kite.next false) 0 (fun m => m) Nat.zero_lt_two) 0 ⟨fun _ => [], s.acc, []⟩ z ∧ z.main = .done ∧
      (3, 1) ∈ z.g.freed ∧ (z.g.freed.map Prod.fst).Nodup := by
  obtain ⟨s, r, h⟩ := C19_exists (backwards := false) (kite_acyclic 0) (fun m hm => (kite_wf.reach m).2 hm) paths 0 (fun m => m) Nat.zero_lt_two
  obtain ⟨z, h1, h2⟩ := exists_done Nat.zero_lt_two ((disposer (kite.next false) 0 (fun m => m) Nat.zero_lt_two).acc
    (i₀ := 0) (g₀ := ⟨fun _ => [], s.acc, []⟩) (fun _ => rfl) kite.nodes (fun m hm => (kite_wf.reach m).2 hm)) _ .init
  obtain ⟨h3, -, h4, -⟩ := C83_disposal h h1 h2
  refine ⟨s, r, h, z, h1, h2, h4 3 ?_ (by decide) 1 (.intro 3 1 (fun _ => 0) (by simp [arcs, kite]) rfl) (by decide), h3⟩
  rcases r with e | a
  · obtain ⟨m, x, -, ⟨val, -, h6⟩, -⟩ := (C19_value h).2 e rfl
    exact absurd h6 (paths_ok _ _ _)
  · exact (C19_once h).2.2.2 rfl a rfl 3 (.tail (.single (by decide : 1 ∈ kite.next false 0)) (by decide))

/-- An initial vertex in the zone of the base vertex. -/
example : ∃ s r, Induces kite false 1 paths 0 (fun m => m) Nat.zero_lt_two 0 0 0 s r :=
  C19_exists (kite_acyclic 1) (fun m hm => (kite_wf.reach m).2 (.trans (.single (by decide)) hm)) paths 0 (fun m => m) Nat.zero_lt_two

/-- A vertex that depends on itself. -/
def loop : Gr Nat Nat Nat where
  nodes := [0, 1]
  base := 0
  vertex m := m
  out m := if m < 2 then [(0, 1)] else []
  inn _ := []

example {z : State 2 Nat (Job 2 Nat Nat)}
    (hz : Reach (task (fun _ => none) paths loop.vertex (arcs loop false) 0 (fun m => m) Nat.zero_lt_two) 0 (start 0) z)
    (hk : z.g.killed = 0) : z.main ≠ .done :=
  C80_cyclic (g := loop) (backwards := false) (.inl ⟨rfl, rfl⟩) (fun h => h 1 (.single (by decide)) (.single (by decide))) paths_ok hz hk

/-- A base vertex with many successors. -/
def broom (k : Nat) : Gr Nat Nat Nat where
  nodes := List.range (k + 1)
  base := 0
  vertex m := m
  out m := if m = 0 then (List.range k).map fun j => (j, j + 1) else []
  inn _ := []

theorem broom_next {k m t : Nat} (h : t ∈ (broom k).next false m) : m = 0 ∧ 0 < t ∧ t < k + 1 := by
  simp only [Gr.next, broom, Bool.false_eq_true, if_false] at h
  split at h
  · simp at h; omega
  · simp at h

/-- Killing it with any number of workers makes null the result, although the value is 33 or more. -/
example (n : Nat) (hn : 0 < n) : ∃ s k, k ≠ 0 ∧ Induces (broom (31 * n + 1)) false 0 paths 0 (fun m => m) hn 0 k 0 s (.ok 0) := by
  refine C81_kill_lost (g := broom (31 * n + 1)) (acyclic_of_lt (fun m t ht => ?_) _) (fun m hm => ?_) paths_ok 0 (fun m => m) hn
    (ms := (List.range (31 * n + 1)).map (· + 1)) (List.nodup_range.map fun a b h => Nat.succ.inj h) (fun m hm => ?_) (by simp)
  · obtain ⟨h1, h2, -⟩ := broom_next ht; omega
  · show m ∈ List.range _
    rw [List.mem_range]
    cases hm with
    | refl => exact Nat.succ_pos _
    | tail _ h => exact (broom_next h).2.2
  · simp only [Gr.next, broom, Bool.false_eq_true, if_false, if_true, List.map_map]
    exact hm

/-- An initial vertex other than the base vertex, with 31 edges to the vertex 2 and one to the beginning of a path. -/
def trap : Gr Nat Nat Nat where
  nodes := List.range 6
  base := 0
  vertex m := m
  out m := if m = 0 then [(0, 1)] else if m = 1 then (0, 3) :: List.replicate 31 (0, 2) else if m = 3 ∨ m = 4 then [(0, m + 1)] else []
  inn _ := []

/-- The end of an analysis killed at once. -/
def halted : State 1 Nat (Trav.Job 1 Nat Unit) :=
  greedy (analysis (n := 1) (trap.next false) (fun m => m) Nat.one_pos) 1 200
    { init (Trav.start () : Trav.Job 1 Nat Unit) with g := { (Trav.start () : Trav.Job 1 Nat Unit) with killed := 1 } }

/-- The end of the evaluation that follows. -/
def misled : State 1 Nat (Job 1 Nat Nat) :=
  greedy (task (n := 1) (fun i => if halted.g.seen i = [] then none else some (halted.g.seen i)) paths trap.vertex (arcs trap false) 1 (fun m => m) Nat.one_pos)
    1 200 (init (start 0))

/-- C82: if the reachability analysis is killed, `cru_induced` may return a wrong value without an error: 33 in this case,
whereas the value of the initial vertex is 35. -/
theorem C82_wrong : (∃ k s, k ≠ 0 ∧ Induces trap false 1 paths 0 (fun m => m) Nat.one_pos k 0 0 s (.ok 33)) ∧
    Has paths trap.vertex (arcs trap false) 1 35 := by
  constructor
  · refine ⟨halted.g.killed, misled.g, by decide +kernel, _, .inr ⟨by decide, halted, greedy_reach _ _ (.step (.env ()) trivial .init rfl), by decide +kernel, rfl, rfl⟩,
      misled, greedy_reach _ _ .init, by decide +kernel, rfl, by decide +kernel, .inr ⟨by decide +kernel, ?_⟩⟩
    have : (List.finRange 1).findSome? misled.g.result = some 33 := by decide +kernel
    rw [this]; rfl
  · have h5 : Has paths trap.vertex (arcs trap false) 5 1 := .intro 5 1 (fun _ => 0) (by simp [arcs, trap]) rfl
    have h4 : Has paths trap.vertex (arcs trap false) 4 2 := .intro 4 2 (fun _ => 1) (fun e he => by simp [arcs, trap] at he; subst he; exact h5) rfl
    have h3 : Has paths trap.vertex (arcs trap false) 3 3 := .intro 3 3 (fun _ => 2) (fun e he => by simp [arcs, trap] at he; subst he; exact h4) rfl
    have h2 : Has paths trap.vertex (arcs trap false) 2 1 := .intro 2 1 (fun _ => 0) (by simp [arcs, trap]) rfl
    refine .intro 1 35 (fun m => if m = 2 then 1 else 3) (fun e he => ?_) rfl
    have : e = (0, 2) ∨ e = (0, 3) := by
      have he' : e ∈ (0, 3) :: List.replicate 31 (0, 2) := he
      rcases List.mem_cons.1 he' with h | h
      · exact .inr h
      · exact .inl (List.mem_replicate.1 h).2
    rcases this with rfl | rfl
    · exact h2
    · exact h3

end Cru.Induce
