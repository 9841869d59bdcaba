import Verif.Model.Pack
import Verif.Model.Hash
import Mathlib.Algebra.Order.Group.Multiset
import Mathlib.Data.Fintype.Card
import Mathlib.Algebra.BigOperators.Group.Finset.Basic
import Mathlib.Tactic.Abel
import Mathlib.Tactic.Linarith

/-!
# C48, C49 and C50: the packet reserve, shared routers and the scalar hash
-/

namespace Cru.Pack

variable {T : Type} [DecidableEq T]

/-- The packet a step starts to free. -/
def Action.packet : Action T → Multiset Nat
  | .check _ p => {p}
  | _ => 0

/-- Packets a sequence of steps frees. -/
def freedBy (as : List (Action T)) : Multiset Nat := (as.map Action.packet).sum

theorem refill_count (l : List Nat) : ∀ (c : Nat) (r : List Nat), r.length = c →
    (refill l c r).1.length = (refill l c r).2 ∧ c ≤ (refill l c r).2 ∧ (refill l c r).2 ≤ max c limit := by
  induction l with
  | nil => intro c r h; simp [refill, h]
  | cons p l ih =>
    intro c r h
    simp only [refill]
    split
    · obtain ⟨h1, h2, h3⟩ := ih (c + 1) (p :: r) (by simp [h])
      exact ⟨h1, by omega, by omega⟩
    · exact ⟨h, by simp, by simp⟩

/-- C48.  The counter always agrees with the reserve list, for any number of threads. -/
theorem C48_counter {as : List (Action T)} {s : State T} (h : Exec as s) : s.reserve.length = s.count := by
  induction h with
  | nil => rfl
  | @snoc as s a s' _ hs ih =>
    cases a with
    | check t p =>
      simp only [step] at hs
      split at hs
      · split at hs <;> cases hs <;> exact ih
      · cases hs
    | push t =>
      simp only [step] at hs
      split at hs
      · cases hs; simp [ih]
      · cases hs
    | alloc t =>
      simp only [step] at hs
      split at hs
      · split at hs
        · cases hs; exact ih
        · next h0 =>
          split at hs
          · cases hs
          · cases hs
            rw [h0] at ih
            simp only [List.length_cons] at ih
            simp only []
            omega
      · cases hs
    | replenish t l =>
      simp only [step] at hs
      split at hs
      · cases hs; exact (refill_count l _ _ ih).1
      · cases hs

variable [Fintype T]

/-- The threads about to push a packet. -/
def pushers (s : State T) : Finset T := Finset.univ.filter fun t => s.pc t ≠ .outside

theorem pushers_outside {s : State T} {t : T} (h : s.pc t = .outside) : (pushers s).card + 1 ≤ Fintype.card T := by
  have h1 : t ∉ pushers s := by simp [pushers, h]
  have h2 := Finset.card_le_univ (insert t (pushers s))
  rwa [Finset.card_insert_of_notMem h1] at h2

/-- C48.  With any number of threads, the reserve exceeds its limit by less than the number of threads. -/
theorem C48_bound {as : List (Action T)} {s : State T} (h : Exec as s) (hT : 0 < Fintype.card T) :
    s.count ≤ limit + (Fintype.card T - 1) := by
  have key : s.count + (pushers s).card ≤ limit + (Fintype.card T - 1) := by
    induction h with
    | nil =>
      simp [init, pushers]
    | @snoc as s a s' he hs ih =>
      have hc := C48_counter he
      cases a with
      | check t p =>
        simp only [step] at hs
        split at hs
        · next ho =>
          split at hs
          · cases hs; exact ih
          · next hlt =>
            cases hs
            have := Finset.card_le_univ (pushers { s with pc := Function.update s.pc t (.pushing p) })
            simp only []
            omega
        · cases hs
      | push t =>
        simp only [step] at hs
        split at hs
        · next p hp =>
          cases hs
          have hsub : pushers (⟨p :: s.reserve, s.count + 1, s.heap, Function.update s.pc t .outside⟩ : State T) =
              (pushers s).erase t := by
            ext u
            by_cases hu : u = t
            · subst hu; simp [pushers]
            · simp [pushers, hu]
          have hmem : t ∈ pushers s := by simp [pushers, hp]
          rw [hsub, Finset.card_erase_of_mem hmem]
          have := Finset.card_pos.2 ⟨t, hmem⟩
          simp only []
          omega
        · cases hs
      | alloc t =>
        simp only [step] at hs
        split at hs
        · split at hs
          · cases hs; exact ih
          · split at hs
            · cases hs
            · cases hs
              show s.count - 1 + (pushers s).card ≤ _
              omega
        · cases hs
      | replenish t l =>
        simp only [step] at hs
        split at hs
        · next ho =>
          cases hs
          obtain ⟨_, _, h3⟩ := refill_count l _ _ hc
          have := pushers_outside ho
          show (refill l s.count s.reserve).2 + (pushers s).card ≤ _
          omega
        · cases hs
  omega

/-- C48.  With one thread the reserve never exceeds its limit. -/
theorem C48_one_thread {as : List (Action T)} {s : State T} (h : Exec as s) (hT : Fintype.card T = 1) : s.count ≤ limit := by
  have := C48_bound h (by omega)
  omega

theorem exec_fill (t : T) (l : List Nat) (hl : l.length = limit - 1) :
    ∃ s : State T, Exec [.replenish t l] s ∧ s.count = limit - 1 ∧ (∀ u, s.pc u = .outside) := by
  have key : ∀ (l : List Nat) (c : Nat) (r : List Nat), c + l.length ≤ limit → (refill l c r).2 = c + l.length := by
    intro l
    induction l with
    | nil => intro c r _; simp [refill]
    | cons p l ih =>
      intro c r h
      simp only [List.length_cons] at h
      simp only [refill]
      rw [if_pos (by omega), ih _ _ (by omega), List.length_cons]
      omega
  refine ⟨{ init with reserve := (refill l 0 []).1, count := (refill l 0 []).2 }, ?_, ?_, fun _ => rfl⟩
  · exact Exec.snoc (as := []) Exec.nil rfl
  · show (refill l 0 []).2 = _
    rw [key l 0 [] (by rw [hl]; simp [limit])]
    omega

/-- C48.  The bound is reached by every number of threads: the limit can be exceeded by one packet for each additional
thread. -/
theorem C48_bound_reached (hT : 0 < Fintype.card T) :
    ∃ (as : List (Action T)) (s : State T), Exec as s ∧ s.count = limit + (Fintype.card T - 1) := by
  obtain ⟨t0⟩ : Nonempty T := Fintype.card_pos_iff.1 hT
  obtain ⟨s0, h0, hc0, hp0⟩ := exec_fill t0 (List.replicate (limit - 1) 0) (by simp)
  -- all threads find the reserve too low
  have all : ∀ F : Finset T, ∃ (as : List (Action T)) (s : State T), Exec as s ∧ s.count = limit - 1 ∧
      ∀ u, s.pc u = if u ∈ F then .pushing 0 else .outside := by
    intro F
    induction F using Finset.induction_on with
    | empty => exact ⟨_, s0, h0, hc0, by simpa using hp0⟩
    | @insert t F ht ih =>
      obtain ⟨as, s, h, hc, hp⟩ := ih
      refine ⟨_, { s with pc := Function.update s.pc t (.pushing 0) }, Exec.snoc (a := .check t 0) h ?_, hc, ?_⟩
      · have h1 : s.pc t = .outside := by rw [hp, if_neg ht]
        simp [step, h1, hc, limit]
      · intro u
        by_cases hu : u = t
        · subst hu; simp
        · simp [hu, hp]
  obtain ⟨as, s, h, hc, hp⟩ := all Finset.univ
  -- then all of them push
  have push : ∀ F : Finset T, ∃ (as : List (Action T)) (s' : State T), Exec as s' ∧ s'.count = limit - 1 + F.card ∧
      ∀ u, s'.pc u = if u ∈ F then .outside else .pushing 0 := by
    intro F
    induction F using Finset.induction_on with
    | empty => exact ⟨as, s, h, by simpa using hc, by simpa using hp⟩
    | @insert t F ht ih =>
      obtain ⟨as, s, h, hc, hp⟩ := ih
      refine ⟨_, { s with reserve := 0 :: s.reserve, count := s.count + 1, pc := Function.update s.pc t .outside },
        Exec.snoc (a := .push t) h ?_, ?_, ?_⟩
      · have h1 : s.pc t = .pushing 0 := by rw [hp, if_neg ht]
        simp [step, h1]
      · rw [Finset.card_insert_of_notMem ht]; simp only [hc]; omega
      · intro u
        by_cases hu : u = t
        · subst hu; simp
        · simp [hu, hp]
  obtain ⟨as', s', h', hc', _⟩ := push Finset.univ
  refine ⟨as', s', h', ?_⟩
  rw [hc', Finset.card_univ]
  simp only [limit]
  omega

omit [Fintype T] in
/-- C48.  Freeing a packet without interference puts it in the reserve if there is room and returns it to the heap otherwise;
it is never lost. -/
theorem C48_packet_kept_or_returned (s : State T) (t : T) (p : Nat) (ht : s.pc t = .outside) :
    ∃ s', freePacket s t p = some s' ∧
      (if s.count < limit then s'.reserve = p :: s.reserve ∧ s'.count = s.count + 1 ∧ s'.heap = s.heap
       else s'.reserve = s.reserve ∧ s'.count = s.count ∧ s'.heap = p ::ₘ s.heap) ∧ s'.pc = s.pc := by
  by_cases hc : s.count < limit
  · refine ⟨_, by simp only [freePacket, step, ht, if_true, if_neg (by omega : ¬ s.count ≥ limit), Option.bind_some,
      Function.update_self, reduceCtorEq, if_false]; rfl, ?_, ?_⟩
    · rw [if_pos hc]; exact ⟨rfl, rfl, rfl⟩
    · ext u
      by_cases hu : u = t
      · subst hu; simp [ht]
      · simp [hu]
  · refine ⟨{ s with heap := p ::ₘ s.heap }, by simp [freePacket, step, ht, (by omega : limit ≤ s.count)], ?_, rfl⟩
    rw [if_neg hc]; exact ⟨rfl, rfl, rfl⟩

/-- The packet a thread is about to push. -/
def Pc.holding : Pc → Multiset Nat
  | .pushing p => {p}
  | .outside => 0

/-- The packets threads are about to push. -/
def inHand (s : State T) : Multiset Nat := ∑ t, (s.pc t).holding

theorem inHand_update (s : State T) (t : T) (x : Pc) :
    (∑ u, (Function.update s.pc t x u).holding) + (s.pc t).holding = inHand s + x.holding := by
  unfold inHand
  rw [← Finset.add_sum_erase Finset.univ (fun u => (Function.update s.pc t x u).holding) (Finset.mem_univ t),
    ← Finset.add_sum_erase Finset.univ (fun u => (s.pc u).holding) (Finset.mem_univ t)]
  have : ∑ u ∈ Finset.univ.erase t, (Function.update s.pc t x u).holding = ∑ u ∈ Finset.univ.erase t, (s.pc u).holding := by
    refine Finset.sum_congr rfl fun u hu => ?_
    rw [Function.update_of_ne (Finset.ne_of_mem_erase hu)]
  rw [this, Function.update_self]
  abel

/-- Whether a step neither takes from the reserve nor adds new packets to it. -/
def Action.frees : Action T → Prop
  | .check _ _ => True
  | .push _ => True
  | _ => False

/-- C48.  However any number of threads freeing packets interleave, every packet freed is in the reserve, has been returned to
the heap or is in the hands of the thread freeing it, exactly once. -/
theorem C48_every_packet_kept_or_returned {as : List (Action T)} {s : State T} (h : Exec as s) (hf : ∀ a ∈ as, a.frees) :
    (s.reserve : Multiset Nat) + s.heap + inHand s = freedBy as := by
  induction h with
  | nil => simp [init, inHand, freedBy, Pc.holding]
  | @snoc as s a s' _ hs ih =>
    have ih := ih (fun a ha => hf a (by simp [ha]))
    have hfa := hf a (by simp)
    have hsnoc : freedBy (as ++ [a]) = freedBy as + a.packet := by
      simp [freedBy]
    rw [hsnoc, ← ih]
    cases a with
    | check t p =>
      simp only [step] at hs
      split at hs
      · next ho =>
        split at hs
        · cases hs
          show _ + (p ::ₘ s.heap) + inHand s = _ + {p}
          rw [← Multiset.singleton_add]; abel
        · cases hs
          have := inHand_update s t (.pushing p)
          rw [ho] at this
          simp only [Pc.holding, add_zero] at this
          show _ + _ + (∑ u, (Function.update s.pc t (.pushing p) u).holding) = _ + {p}
          unfold Pc.holding
          rw [this]; abel
      · cases hs
    | push t =>
      simp only [step] at hs
      split at hs
      · next p hp =>
        cases hs
        have := inHand_update s t .outside
        rw [hp] at this
        have this : (∑ u, (Function.update s.pc t .outside u).holding) + {p} = inHand s := by
          simpa [Pc.holding] using this
        show ((p :: s.reserve : List Nat) : Multiset Nat) + s.heap + (∑ u, (Function.update s.pc t .outside u).holding) = _ + 0
        rw [← this, ← Multiset.cons_coe, ← Multiset.singleton_add]; abel
      · cases hs
    | alloc t => exact absurd hfa (fun h => h)
    | replenish t l => exact absurd hfa (fun h => h)

/-- Two threads that free packets at the same time, when one more is allowed, exceed the limit. -/
example : ∃ (as : List (Action (Fin 2))) (s : State (Fin 2)), Exec as s ∧ s.count = limit + 1 := by
  simpa using C48_bound_reached (T := Fin 2) (by simp)

end Cru.Pack

namespace Cru.Router

/-- How many references a sequence of operations creates and how many it gives up. -/
def shares (os : List Op) : Nat := os.countP fun | .share => true | _ => false

/-- See `shares`. -/
def frees (os : List Op) : Nat := os.countP fun | .free _ => true | _ => false

theorem frees_cons (o : Op) (os : List Op) : frees (o :: os) = frees [o] + frees os := by
  simp only [frees, List.countP_cons, List.countP_nil]; omega

theorem shares_cons (o : Op) (os : List Op) : shares (o :: os) = shares [o] + shares os := by
  simp only [shares, List.countP_cons, List.countP_nil]; omega

/-- C49.  As long as fewer references are given up than there have been so far, at every moment, the router lives; its
reference count is exact. -/
theorem C49_lives (os : List Op) : ∀ (n : Nat) (st k : Int),
    (∀ pre post, os = pre ++ post → frees pre < n + 1 + shares pre) →
    ∃ st' k', ops (.live n st k) os = some (.live (n + shares os - frees os) st' k') := by
  induction os with
  | nil => intro n st k _; exact ⟨st, k, by simp [ops, shares, frees]⟩
  | cons o os ih =>
    intro n st k h
    have hpre : ∀ pre post, os = pre ++ post → frees [o] + frees pre < n + 1 + (shares [o] + shares pre) := by
      intro pre post hp
      have := h (o :: pre) post (by simp [hp])
      rwa [frees_cons, shares_cons] at this
    rw [frees_cons, shares_cons]
    cases o with
    | share =>
      obtain ⟨st', k', hh⟩ := ih (n + 1) st k (by
        intro pre post hp; have := hpre pre post hp; simp [frees, shares] at this ⊢; omega)
      refine ⟨st', k', ?_⟩
      simp only [ops, op, Option.bind_some, hh, frees, shares]
      simp; omega
    | free err =>
      have h0 := hpre [] os rfl
      have hn : n ≠ 0 := by simp [frees, shares] at h0; omega
      obtain ⟨st', k', hh⟩ := ih (n - 1) st k (by
        intro pre post hp; have := hpre pre post hp; simp [frees, shares] at this ⊢; omega)
      refine ⟨st', k', ?_⟩
      simp only [ops, op, hn, ne_eq, not_false_eq_true, if_true, Option.bind_some, hh, frees, shares]
      simp; omega
    | throw e =>
      obtain ⟨st', k', hh⟩ := ih n (if st ≠ 0 then st else e) k (by
        intro pre post hp; have := hpre pre post hp; simp [frees, shares] at this ⊢; omega)
      exact ⟨st', k', by simp only [ops, op, Option.bind_some, hh, frees, shares]; simp⟩
    | kill k1 =>
      obtain ⟨st', k', hh⟩ := ih n st k1 (by
        intro pre post hp; have := hpre pre post hp; simp [frees, shares] at this ⊢; omega)
      exact ⟨st', k', by simp only [ops, op, Option.bind_some, hh, frees, shares]; simp⟩

/-- C49.  Giving up the last reference destroys it, reporting the error it is given, or else the first error recorded, or else
`CRU_INTKIL` if it has been killed. -/
theorem C49_destroyed_by_last (st k err : Int) :
    op (.live 0 st k) (.free err) =
      some (.destroyed (if err ≠ 0 then err else if st ≠ 0 then st else if k ≠ 0 then -528 else 0)) := by
  simp only [op]
  by_cases h1 : err = 0 <;> simp [h1]

/-- C49.  So a router with any history is destroyed by exactly that release that makes them one more than the copies made. -/
theorem C49_destroyed_exactly (os : List Op) (err : Int)
    (h : ∀ pre post, os = pre ++ post → frees pre < 1 + shares pre) :
    ∃ s, ops (.live 0 0 0) (os ++ [.free err]) = some s ∧
      ((∃ e, s = .destroyed e) ↔ frees (os ++ [.free err]) = 1 + shares os) := by
  have happ : ∀ (os : List Op) (s : State) (o : Op), ops s (os ++ [o]) = (ops s os).bind fun s' => op s' o := by
    intro os
    induction os with
    | nil => intro s o; simp [ops]
    | cons a os ih =>
      intro s o
      simp only [List.cons_append, ops]
      cases op s a with
      | none => rfl
      | some s' => simpa using ih s' o
  obtain ⟨st, k, hl⟩ := C49_lives os 0 0 0 (by simpa using h)
  have hlast := h os [] (by simp)
  have hf : frees (os ++ [.free err]) = frees os + 1 := by simp [frees]
  rw [happ, hl, Option.bind_some, hf]
  by_cases hz : 0 + shares os - frees os = 0
  · rw [hz, C49_destroyed_by_last]
    exact ⟨_, rfl, ⟨fun _ => by omega, fun _ => ⟨_, rfl⟩⟩⟩
  · simp only [op, hz, ne_eq, not_false_eq_true, if_true]
    refine ⟨_, rfl, ⟨?_, fun h => by omega⟩⟩
    rintro ⟨e, he⟩; cases he

/-- C49.  A kill is reported if there has been no error. -/
theorem C49_kill_reported (os : List Op) (k : Int) (hk : k ≠ 0) (hos : ∀ o ∈ os, o = .share ∨ ∃ e, o = .free e) (e : Int)
    (h : ops (.live 0 0 k) os = some (.destroyed e)) (hz : ∀ o ∈ os, ∀ x, o = .free x → x = 0) : e = -528 := by
  have key : ∀ (os : List Op) (n : Nat), (∀ o ∈ os, o = .share ∨ ∃ e, o = .free e) →
      (∀ o ∈ os, ∀ x, o = .free x → x = 0) → ops (.live n 0 k) os = some (.destroyed e) → e = -528 := by
    intro os
    induction os with
    | nil => intro n _ _ h; simp [ops] at h
    | cons o os ih =>
      intro n ho hz h
      rcases ho o (by simp) with rfl | ⟨x, rfl⟩
      · exact ih (n + 1) (fun o h => ho o (by simp [h])) (fun o h => hz o (by simp [h])) (by simpa [ops, op] using h)
      · have hx := hz (.free x) (by simp) x rfl
        subst hx
        by_cases hn : n = 0
        · subst hn
          rw [ops, C49_destroyed_by_last] at h
          simp only [ne_eq, not_true_eq_false, if_false, hk, not_false_eq_true, if_true, Option.bind_some] at h
          cases os with
          | nil => simpa [ops] using h.symm
          | cons o' os => simp [ops, op] at h
        · exact ih (n - 1) (fun o h => ho o (by simp [h])) (fun o h => hz o (by simp [h])) (by simpa [ops, op, hn] using h)
  exact key os 0 hos hz h

example : ops (.live 0 0 0) [.share, .free 0, .kill 1, .share, .free 0, .free 0] = some (.destroyed (-528)) := rfl

end Cru.Router

namespace Cru.Hash

theorem mix_mix (k : BitVec 64) : mix (mix k) = k := by
  apply BitVec.eq_of_getLsbD_eq
  intro i hi
  simp only [mix, BitVec.getLsbD_xor, BitVec.getLsbD_ushiftRight]
  have : k.getLsbD (33 + (33 + i)) = false := BitVec.getLsbD_of_ge _ _ (by omega)
  rw [this]
  cases k.getLsbD i <;> cases k.getLsbD (33 + i) <;> rfl

theorem mul_injective (a b : BitVec 64) (h : a * b = 1#64) (x y : BitVec 64) (hxy : x * a = y * a) : x = y := by
  have : x * a * b = y * a * b := by rw [hxy]
  rw [BitVec.mul_assoc, BitVec.mul_assoc, h, BitVec.mul_one, BitVec.mul_one] at this
  exact this

/-- C50.  Different machine words have different hashes. -/
theorem C50_injective (x y : BitVec 64) (h : scalarHash x = scalarHash y) : x = y := by
  unfold scalarHash at h
  have h1 := congrArg mix h
  simp only [mix_mix] at h1
  have h2 := mul_injective _ 0x9cb4b2f8129337db#64 (by decide) _ _ h1
  have h3 := congrArg mix h2
  simp only [mix_mix] at h3
  have h4 := mul_injective _ 0x4f74430c22a54005#64 (by decide) _ _ h3
  have h5 := congrArg mix h4
  simp only [mix_mix] at h5
  have h6 := congrArg (· - 1) h5
  simpa only [BitVec.add_sub_cancel] using h6

example : scalarHash 0 ≠ scalarHash 1 ∧ scalarHash 0 ≠ 0 := by decide

end Cru.Hash
