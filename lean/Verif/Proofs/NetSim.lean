import Verif.Proofs.NetInv
import Mathlib.Tactic.Abel

namespace Cru.Net

variable {n : Nat} {P G E : Type}

theorem podPush_sum (dest : P → Fin n) (sends : List P) (pod : Fin n → List P) :
    ∑ j, (podPush dest pod sends j : Multiset P) = ∑ j, (pod j : Multiset P) + (sends : Multiset P) := by
  unfold podPush
  induction sends generalizing pod with
  | nil => simp
  | cons p l ih =>
    rw [List.foldl_cons, ih]
    have := sum_change (fun k => (pod k : Multiset P))
      (fun k => (Function.update pod (dest p) (p :: pod (dest p)) k : Multiset P)) (dest p)
      (by intro k hk; simp [Function.update_of_ne hk])
    simp only [Function.update_self] at this
    have h2 : ∑ k, (Function.update pod (dest p) (p :: pod (dest p)) k : Multiset P)
        = ∑ k, (pod k : Multiset P) + {p} := by
      refine add_right_cancel (b := (pod (dest p) : Multiset P)) ?_
      rw [this, add_assoc]; rfl
    rw [h2, add_assoc]; rfl

theorem pod_clear_sum (pod : Fin n → List P) (j : Fin n) :
    ∑ k, (Function.update pod j [] k : Multiset P) + (pod j : Multiset P) = ∑ k, (pod k : Multiset P) := by
  have := sum_change (fun k => (pod k : Multiset P)) (fun k => (Function.update pod j [] k : Multiset P)) j
    (by intro k hk; simp [Function.update_of_ne hk])
  simpa using this

/-- Effect on the pending packets of a change confined to lane `i`. -/
theorem pending_lane {i₀ : P} {s s' : State n P G} (i : Fin n) (p' : Port P) (w' : Worker n P)
    (hp : s'.port = Function.update s.port i p') (hw : s'.worker = Function.update s.worker i w')
    (hm : s'.main.held i₀ = s.main.held i₀) :
    pending i₀ s' + laneBag (s.port i) (s.worker i) = pending i₀ s + laneBag p' w' := by
  have hs := sum_change (fun k => laneBag (s.port k) (s.worker k)) (fun k => laneBag (s'.port k) (s'.worker k)) i
    (by intro k hk; simp [hp, hw, Function.update_of_ne hk])
  have e : laneBag (s'.port i) (s'.worker i) = laneBag p' w' := by simp [hp, hw]
  simp only [e] at hs
  unfold pending
  rw [hm, add_assoc, hs, add_assoc]

theorem pending_same {i₀ : P} {s s' : State n P G} (i : Fin n) (p' : Port P) (w' : Worker n P)
    (hp : s'.port = Function.update s.port i p') (hw : s'.worker = Function.update s.worker i w')
    (hm : s'.main.held i₀ = s.main.held i₀) (hb : laneBag p' w' = laneBag (s.port i) (s.worker i)) :
    pending i₀ s' = pending i₀ s := by
  have := pending_lane (i₀ := i₀) i p' w' hp hw hm
  rw [hb] at this
  exact add_right_cancel this

theorem pending_assign (i₀ : P) (s : State n P G) (j : Fin n) (l : List P) :
    pending i₀ (assign s j l) = pending i₀ s + (l : Multiset P) := by
  unfold assign
  split
  · rename_i h; simp [h]
  · dsimp only
    have key : ∀ s' : State n P G, s'.port = Function.update s.port j { s.port j with
        assigned := l ++ (s.port j).assigned,
        signalled := (s.port j).signalled || ((s.port j).waiting && (s.port j).assigned.isEmpty) } →
        s'.worker = s.worker → s'.main = s.main → pending i₀ s' = pending i₀ s + (l : Multiset P) := by
      intro s' hp hw hm
      have := pending_lane (i₀ := i₀) (s := s) (s' := s') j _ (s.worker j) hp (by simp [hw]) (by rw [hm])
      refine add_right_cancel (b := laneBag (s.port j) (s.worker j)) ?_
      rw [this]
      simp only [laneBag, ← Multiset.coe_add]
      abel
    split <;> exact key _ rfl rfl rfl

theorem pending_undefer1 (i₀ : P) (s : State n P G) (j : Fin n) :
    pending i₀ (undefer1 s j) = pending i₀ s := by
  unfold undefer1
  dsimp only
  split
  · rename_i h
    have key : ∀ s' : State n P G, s'.port = Function.update s.port j { s.port j with
        assigned := (s.port j).deferred, deferred := [], signalled := (s.port j).signalled || (s.port j).waiting } →
        s'.worker = s.worker → s'.main = s.main → pending i₀ s' = pending i₀ s := by
      intro s' hp hw hm
      refine pending_same j _ (s.worker j) hp (by simp [hw]) (by rw [hm]) ?_
      simp [laneBag, h.1]
    split <;> exact key _ rfl rfl rfl
  · rfl

theorem assign_setWorker (s : State n P G) (i j : Fin n) (w : Worker n P) (l : List P) :
    assign (s.setWorker i w) j l = (assign s j l).setWorker i w := by
  unfold assign
  split
  · rfl
  · dsimp only [State.setWorker, State.setPort]; split <;> rfl

theorem undefer1_setWorker (s : State n P G) (i j : Fin n) (w : Worker n P) :
    undefer1 (s.setWorker i w) j = (undefer1 s j).setWorker i w := by
  unfold undefer1 State.setWorker
  dsimp only
  split
  · split <;> rfl
  · rfl

theorem assign_main (s : State n P G) (j l) : (assign s j l).main = s.main := by
  unfold assign State.setPort; split <;> [rfl; (dsimp only; split <;> rfl)]

theorem assign_g (s : State n P G) (j l) : (assign s j l).g = s.g := by
  unfold assign State.setPort; split <;> [rfl; (dsimp only; split <;> rfl)]

theorem undefer1_worker (s : State n P G) (j) : (undefer1 s j).worker = s.worker := by
  unfold undefer1; dsimp only; split <;> [(split <;> rfl); rfl]

theorem undefer1_main (s : State n P G) (j) : (undefer1 s j).main = s.main := by
  unfold undefer1; dsimp only; split <;> [(split <;> rfl); rfl]

theorem undefer1_g (s : State n P G) (j) : (undefer1 s j).g = s.g := by
  unfold undefer1; dsimp only; split <;> [(split <;> rfl); rfl]

theorem gotten_incoming (l : List P) : (gotten l).incoming = l := by cases l <;> rfl

/-- A worker step is invisible in the bag, or handles one pending packet at its own lane. -/
theorem workerStep_sim {T : Task n P G E} {i : Fin n} {i₀ : P} {s s' : State n P G}
    (hr : ∀ x ∈ (s.worker i).pc.incoming, T.dest x = i) (hs : workerStep T i s = some s') :
    s'.main = s.main ∧ ((s'.g = s.g ∧ pending i₀ s' = pending i₀ s ∧ ¬ ∃ p ps, (s.worker i).pc = .run (p :: ps)) ∨
      ∃ p rest, pending i₀ s = p ::ₘ rest ∧ s'.g = (T.handle (T.dest p) s.g p).1 ∧
        pending i₀ s' = Bag.produced T s.g p + rest) := by
  unfold workerStep at hs
  dsimp only at hs
  split at hs
  next p ps e =>
    obtain rfl := Option.some.inj hs
    refine ⟨rfl, Or.inr ⟨p, ?_⟩⟩
    have hd : T.dest p = i := hr p (by simp [e, Pc.incoming])
    have hmem : p ∈ pending i₀ s := by
      unfold pending
      refine Multiset.mem_add.2 (Or.inr ?_)
      rw [Multiset.mem_sum]
      exact ⟨i, Finset.mem_univ _, by simp [laneBag, e, Pc.incoming]⟩
    obtain ⟨rest, hrest⟩ := Multiset.exists_cons_of_mem hmem
    refine ⟨rest, hrest, by rw [hd], ?_⟩
    have := pending_lane (i₀ := i₀) (s := s) (s' := { s.setWorker i { pc := .run ps, pod := podPush T.dest (s.worker i).pod (T.handle i s.g p).2.1, deferrals := if (T.handle i s.g p).2.2 then p :: (s.worker i).deferrals else (s.worker i).deferrals } with g := (T.handle i s.g p).1 })
      i (s.port i) _ (by simp [State.setWorker]) rfl rfl
    refine add_right_cancel (b := laneBag (s.port i) (s.worker i)) ?_
    rw [this, hrest]
    simp only [laneBag, e, Pc.incoming, podPush_sum, Bag.produced, hd, ← Multiset.singleton_add,
      ← Multiset.cons_coe]
    split
    · simp only [← Multiset.cons_coe, ← Multiset.singleton_add]; abel
    · abel
  next e =>
    split at hs
    · obtain rfl := Option.some.inj hs
      refine ⟨rfl, Or.inl ⟨rfl, ?_, by simp [e]⟩⟩
      refine pending_same i (s.port i) _ (by simp [State.setPc, State.setWorker]) rfl rfl ?_
      simp [laneBag, e, Pc.incoming]
    · obtain rfl := Option.some.inj hs
      refine ⟨rfl, Or.inl ⟨rfl, ?_, by simp [e]⟩⟩
      refine pending_same i (s.port i) _ (by simp [State.setWorker]) rfl rfl ?_
      simp only [laneBag, e, Pc.incoming, ← pod_clear_sum (s.worker i).pod i, Multiset.coe_nil]
      abel
  next e =>
    split at hs
    · obtain rfl := Option.some.inj hs
      refine ⟨rfl, Or.inl ⟨rfl, ?_, by simp [e]⟩⟩
      refine pending_same i (s.port i) _ (by simp [State.setPc, State.setWorker]) rfl rfl ?_
      simp [laneBag, e, Pc.incoming]
    · obtain rfl := Option.some.inj hs
      refine ⟨rfl, Or.inl ⟨rfl, ?_, by simp [e]⟩⟩
      refine pending_same i _ _ rfl rfl rfl ?_
      simp only [laneBag, e, Pc.incoming, State.setPort, Multiset.coe_nil]
      abel
  next e =>
    obtain rfl := Option.some.inj hs
    refine ⟨rfl, Or.inl ⟨rfl, ?_, by simp [e]⟩⟩
    refine pending_same i _ _ rfl rfl rfl ?_
    simp only [laneBag, e, Pc.incoming, Multiset.coe_nil, ← Multiset.coe_add]
    abel
  next j en e =>
    split at hs
    · rename_i hj
      obtain rfl := Option.some.inj hs
      rw [assign_setWorker]
      refine ⟨assign_main _ _ _, Or.inl ⟨assign_g _ _ _, ?_, by simp [e]⟩⟩
      have ew := assign_worker s ⟨j, hj⟩ ((s.worker i).pod ⟨j, hj⟩)
      have := pending_lane (i₀ := i₀) (s := assign s ⟨j, hj⟩ ((s.worker i).pod ⟨j, hj⟩))
        (s' := (assign s ⟨j, hj⟩ ((s.worker i).pod ⟨j, hj⟩)).setWorker i { s.worker i with
            pc := .send (j + 1) (en || !((s.worker i).pod ⟨j, hj⟩).isEmpty),
            pod := Function.update (s.worker i).pod ⟨j, hj⟩ [] }) i
        ((assign s ⟨j, hj⟩ ((s.worker i).pod ⟨j, hj⟩)).port i) _
        (by simp [State.setWorker]) rfl rfl
      rw [pending_assign, ew] at this
      refine add_right_cancel (b := laneBag ((assign s ⟨j, hj⟩ ((s.worker i).pod ⟨j, hj⟩)).port i) (s.worker i)) ?_
      rw [this]
      simp only [laneBag, e, Pc.incoming, ← pod_clear_sum (s.worker i).pod ⟨j, hj⟩]
      abel
    · obtain rfl := Option.some.inj hs
      refine ⟨rfl, Or.inl ⟨rfl, ?_, by simp [e]⟩⟩
      refine pending_same i (s.port i) _ (by simp [State.setPc, State.setWorker]) rfl rfl ?_
      cases en <;> simp [laneBag, e, Pc.incoming]
  next j e =>
    split at hs
    · rename_i hj
      obtain rfl := Option.some.inj hs
      unfold State.setPc
      rw [undefer1_setWorker]
      refine ⟨undefer1_main _ _, Or.inl ⟨undefer1_g _ _, ?_, by simp [e]⟩⟩
      rw [← pending_undefer1 i₀ s ⟨j, hj⟩]
      refine pending_same i ((undefer1 s ⟨j, hj⟩).port i) _ (by simp [State.setWorker]) rfl rfl ?_
      simp [laneBag, e, Pc.incoming, undefer1_worker]
    · obtain rfl := Option.some.inj hs
      refine ⟨rfl, Or.inl ⟨rfl, ?_, by simp [e]⟩⟩
      refine pending_same i (s.port i) _ (by simp [State.setPc, State.setWorker]) rfl rfl ?_
      simp [laneBag, e, Pc.incoming]
  next e =>
    split at hs
    · obtain rfl := Option.some.inj hs
      refine ⟨rfl, Or.inl ⟨rfl, ?_, by simp [e]⟩⟩
      refine pending_same i _ _ rfl rfl rfl ?_
      simp only [laneBag, e, Pc.incoming, State.setPort, Multiset.coe_nil]
      abel
    · split at hs
      · obtain rfl := Option.some.inj hs
        refine ⟨rfl, Or.inl ⟨rfl, ?_, by simp [e]⟩⟩
        refine pending_same i (s.port i) _ (by simp [State.setPc, State.setWorker]) rfl rfl ?_
        simp [laneBag, e, Pc.incoming]
      · split at hs
        · obtain rfl := Option.some.inj hs
          refine ⟨rfl, Or.inl ⟨rfl, ?_, by simp [e]⟩⟩
          refine pending_same i (s.port i) _ (by simp [State.setPc, State.setWorker]) rfl rfl ?_
          simp [laneBag, e, Pc.incoming]
        · obtain rfl := Option.some.inj hs
          refine ⟨rfl, Or.inl ⟨rfl, ?_, by simp [e]⟩⟩
          refine pending_same i _ _ rfl rfl rfl ?_
          simp [laneBag, e, Pc.incoming, State.setPort]
  next e =>
    split at hs
    · obtain rfl := Option.some.inj hs
      refine ⟨rfl, Or.inl ⟨rfl, ?_, by simp [e]⟩⟩
      refine pending_same i _ _ rfl rfl rfl ?_
      have hi : (s.worker i).pc.incoming = [] := by rw [e]; rfl
      simp only [laneBag, hi, State.setPort, Multiset.coe_nil, gotten_incoming]
      abel
    · cases hs
  next e => cases hs

end Cru.Net
