import Verif.Proofs.PoolClasses
import Verif.Props.PoolMutate

/-!
# C149: classes of a partition used by several threads
-/

namespace Cru.PoolClasses

open Cru.Pool Relation

variable {k : Nat} {U : Type} {cls : U → Fin k} {progs : List (Prog k U)} {p : Classes.Part k} {s s' : State (Fin k) (Option (Fin k)) Unit}

/-- C149: there are no data races. -/
theorem C149_race_free (hp : ∀ c, p.sup c = none) (h : Reach (start cls progs p) s) : ¬ Race s := by
  obtain ⟨γ, hw⟩ := whole_start (cls := cls) progs hp
  obtain ⟨γ', h', q', hw'⟩ := reach_whole hw h
  exact no_race hw'

/-- C149: at any time the calls that have been made can be put in order such that they have the results they'd have one after the other,
and later on this order is kept, so that a call that's begun after another one has returned comes after it. -/
theorem C149_linear (hp : ∀ c, p.sup c = none) (h : Reach (start cls progs p) s) (h' : Reach s s') :
    ∃ h₁ h₂, Explains cls progs p s h₁ ∧ Explains cls progs p s' (h₁ ++ h₂) := by
  obtain ⟨γ, hw⟩ := whole_start (cls := cls) progs hp
  obtain ⟨γ', h₁, q', hw'⟩ := reach_whole hw h
  obtain ⟨γ'', h₂, q'', hw''⟩ := reach_whole hw' h'
  exact ⟨h₁, h₂, whole_explains hw', whole_explains hw''⟩

/-- C149: when all threads have ended, they've made all of their calls, the classes in memory are what these calls lead to one after the
other, two classes are the same exactly if they've been united, directly or indirectly, and the classes returned for a vertex are the same
as the vertex's. -/
theorem C149_final (hp : ∀ c, p.sup c = none) (h : Reach (start cls progs p) s) (he : Ended s) :
    ∃ h, replay cls h p = some ⟨s.mem, p.refs⟩ ∧ (∀ e ∈ h, e.thread < progs.length) ∧
      (∀ t pr, progs[t]? = some pr → Does t pr (callsOf t h) .done) ∧
      (∀ c d, ∃ c' d', Classes.classOf ⟨s.mem, p.refs⟩ c = some c' ∧ Classes.classOf ⟨s.mem, p.refs⟩ d = some d' ∧
        (c' = d' ↔ EqvGen (Joined h) c d)) ∧
      ∀ t v c, .asked t v c ∈ h → Classes.classOf ⟨s.mem, p.refs⟩ (cls v) = Classes.classOf ⟨s.mem, p.refs⟩ c := by
  obtain ⟨γ, hw⟩ := whole_start (cls := cls) progs hp
  obtain ⟨γ', h', q, hw'⟩ := reach_whole hw h
  rw [List.nil_append] at hw'
  have hn : ∀ t, step t s = none := by
    intro t
    unfold step
    cases hc : s.threads[t]? with
    | none => rfl
    | some c =>
      obtain rfl := he c (List.mem_of_getElem? hc)
      rfl
  obtain ⟨-, hm, hd⟩ := stuck_done hw' hn
  have hq : q = ⟨s.mem, p.refs⟩ := by rw [hm, ← hw'.refs]
  have hrep := hw'.replay
  obtain ⟨h1, h2, h3⟩ := replay_together hp h' hrep
  subst hq
  refine ⟨h', hrep, hw'.made, fun t pr ht => hd t pr ht ▸ hw'.does t pr ht, fun c d => ?_, fun t v c hc => ?_⟩
  · obtain ⟨c', hc⟩ := classOf_some h1 c
    obtain ⟨d', hd⟩ := classOf_some h1 d
    refine ⟨c', d', hc, hd, ?_⟩
    rw [← h2, Classes.together_classOf h1, hc, hd, Option.some.injEq]
  · exact (Classes.together_classOf h1 _ _).1 (h3 t v c hc)

theorem does_unions {t : Nat} {xs : List (Fin k × Fin k)} {h : List (Event k U)} (hd : Does t (unions xs) h .done) :
    h = xs.map fun x => .joined t x.1 x.2 := by
  induction xs generalizing h with
  | nil => cases hd; rfl
  | cons x xs ih =>
    cases hd with
    | joined hd => rw [ih hd]; rfl

/-- C149: in particular, if some threads unite some pairs of classes, it makes no difference which thread unites which, and when: in the end
two classes are the same exactly if they're united, directly or indirectly. -/
theorem C149_unions (hp : ∀ c, p.sup c = none) {pairs : List (List (Fin k × Fin k))} (h : Reach (start cls (pairs.map unions) p) s)
    (he : Ended s) (c d : Fin k) : ∃ c' d', Classes.classOf ⟨s.mem, p.refs⟩ c = some c' ∧ Classes.classOf ⟨s.mem, p.refs⟩ d = some d' ∧
      (c' = d' ↔ EqvGen (fun x y => (x, y) ∈ pairs.flatten) c d) := by
  obtain ⟨h', -, h1, h2, h3, -⟩ := C149_final hp h he
  have hj : Joined h' = fun x y => (x, y) ∈ pairs.flatten := by
    funext x y
    refine propext ⟨?_, fun hm => ?_⟩
    · rintro ⟨t, ht⟩
      have hlt : t < pairs.length := by
        have := h1 _ ht
        rw [List.length_map] at this
        exact this
      have hd := does_unions (h2 t _ (by rw [List.getElem?_map, List.getElem?_eq_getElem hlt]; rfl))
      have hmem : Event.joined t x y ∈ callsOf t h' := List.mem_filter.2 ⟨ht, by simp [Event.thread]⟩
      rw [hd] at hmem
      obtain ⟨z, hz, e⟩ := List.mem_map.1 hmem
      cases e
      exact List.mem_flatten.2 ⟨_, List.getElem_mem hlt, hz⟩
    · obtain ⟨xs, hxs, hm⟩ := List.mem_flatten.1 hm
      obtain ⟨t, ht⟩ := List.getElem?_of_mem hxs
      have hd := does_unions (h2 t _ (by rw [List.getElem?_map, ht]; rfl))
      have hmem : Event.joined t x y ∈ callsOf t h' := by rw [hd]; exact List.mem_map.2 ⟨(x, y), hm, rfl⟩
      exact ⟨t, (List.mem_filter.1 hmem).1⟩
  rw [← hj]
  exact h3 c d

/-- C149: in whatever order the threads are scheduled, they all come to their ends, as long as one of them is scheduled that can go on. -/
theorem C149_ends (hp : ∀ c, p.sup c = none) (F : Nat → State (Fin k) (Option (Fin k)) Unit) (h0 : F 0 = start cls progs p)
    (hf : ∀ i, (∃ t, step t (F i) = some (F (i + 1))) ∨ (∀ t, step t (F i) = none) ∧ F (i + 1) = F i) : ∃ i, Ended (F i) := by
  have hr : ∀ i, Reach (start cls progs p) (F i) := by
    intro i
    induction i with
    | zero => rw [h0]; exact .init
    | succ i ih =>
      rcases hf i with ⟨t, ht⟩ | ⟨-, he⟩
      · exact .step t ih ht
      · rw [he]; exact ih
  obtain ⟨i, hi⟩ := Pool.ends F fun i => (hf i).imp_right And.left
  obtain ⟨γ, hw⟩ := whole_start (cls := cls) progs hp
  obtain ⟨γ', h', q', hw'⟩ := reach_whole hw (hr i)
  exact ⟨i, (stuck_done hw' hi).1⟩

/-! Three vertices in classes of their own; a thread asks for the classes of 0 and 1 and unites them, and another one does it with 1 and 2.
The latter asks before the former unites and unites with the old class afterwards. -/

/-- The partition. -/
def exPart : Classes.Part 3 := ⟨fun _ => none, fun _ => 0⟩

/-- Unite the classes of two vertices. -/
def exProg (v w : Fin 3) : Prog 3 (Fin 3) := .classOf v fun c => .classOf w fun d => .united c d .done

example : ∃ s, Reach (start id [exProg 0 1, exProg 1 2] exPart) s ∧ Ended s ∧ s.mem 0 = none ∧ s.mem 1 = some 0 ∧ s.mem 2 = some 0 := by
  have h1 : ∃ s, run ([1, 0, 0, 1, 1, 1, 0, 0, 1, 0] ++ [0, 1] ++ List.replicate 6 0 ++ List.replicate 7 1)
      (start id [exProg 0 1, exProg 1 2] exPart) = some s ∧ s.threads = [.done, .done] ∧ s.mem 0 = none ∧ s.mem 1 = some 0 ∧
      s.mem 2 = some 0 := ⟨_, rfl, rfl, rfl, rfl, rfl⟩
  obtain ⟨s, a1, a2, a3⟩ := h1
  refine ⟨s, run_reach _ .init a1, fun c hc => ?_, a3⟩
  rw [a2] at hc
  simpa using hc

end Cru.PoolClasses
