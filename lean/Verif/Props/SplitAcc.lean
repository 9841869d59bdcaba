import Verif.Proofs.SplitAccInv
import Verif.Props.SpawnAcc

/-! # C121: storage in `cru_split` -/

namespace Cru.SplitAcc

open Net Fold
open MergeAcc (Bal)
open Request (Env alloc edge destroy_frame alloc_bal Exact)
open SpawnAcc (Verdict)
open Split (Twin)

variable {n : Nat} {N V : Type} [Fintype N] [DecidableEq N] {c : Env} {o : Ops V} {res : Nat → Bool} {limit : Nat} {addr : Twin N → Nat} {hn : 0 < n}

/-- Nodes that have been visited. -/
def Seen (addr : Twin N → Nat) (hn : 0 < n) (s : Work n N V) (m : N) : Prop := m ∈ s.seen (Build.lane hn (addr (m, false)))

/-- The state in which splitting starts. -/
def start (h : Heap n N V) : Work n N V := Trav.start h

theorem inv_start {h : Heap n N V} (hr : Ready c o.pFree h) (b : N) : Inv c o.pFree (Seen addr hn (start h)) h {.visit b none} := by
  have e1 : ({.visit b none} : Multiset (Pkt N V)).filterMap Pkt.carrier = 0 := rfl
  have e2 : ({.visit b none} : Multiset (Pkt N V)).filterMap Pkt.edge = 0 := rfl
  have e3 : ({.visit b none} : Multiset (Pkt N V)).filterMap Pkt.fresh = 0 := rfl
  have e4 : nodes h ({.visit b none} : Multiset (Pkt N V)) = ∑ i, (h.stock i : Multiset (Twin N)) := by rw [nodes, e3, add_zero, stocked]
  have e5 : addresses h ({.visit b none} : Multiset (Pkt N V)) = ∑ t : Twin N, ids (h.out t) := by rw [addresses, e2, add_zero]
  have hs := hr.stock
  refine ⟨hr.fine, by rw [e5]; exact hr.nodup, by rw [e5]; exact hr.below, by rw [e1]; exact Multiset.nodup_zero, by simp [e1], fun m _ => hr.dst m,
    fun m _ => ?_, ?_, fun m => ?_, fun m _ => hr.blank m, by simp, ⟨hr.past, hr.exact.1⟩, ?_⟩
  · rw [e4]
    have := hs m true
    rw [← Multiset.count_eq_zero]
    simpa using this
  · rw [e4, Multiset.nodup_iff_count_le_one]
    rintro ⟨m, k⟩
    rw [hs m k]
    split_ifs <;> simp
  · rw [e4, ← Multiset.one_le_count_iff_mem, hs m false]
    simp
  · rw [hr.exact.2]; simp [sent, Pkt.held]

theorem fanIn_inv {seen : N → Prop} {h : Heap n N V} {m : N} {d : Option (Twin N × Nat)}
    {rest : Multiset (Pkt N V)} (hi : Inv c o.pFree seen h (.visit m d ::ₘ rest)) :
    Inv c o.pFree seen (fanIn c o res h m d).1 (((fanIn c o res h m d).2 : Multiset (Pkt N V)) + rest) := by
  rcases fanIn_spec c o res h m d (fun s k hd => by
    subst hd
    refine ⟨(hi.car (s, k) ?_).1, out_nodup hi.idsNodup s⟩
    rw [Multiset.filterMap_cons_some Pkt.carrier (.visit m (some (s, k))) rest rfl]; simp) with he | ⟨s, k, hd, hin⟩
  · rw [he]
    have := hi.drop (w := h.world) rfl (fun x => (Bal.refl _ x).cast (by simp [Pkt.held]) rfl)
    simpa using this
  · subst hd
    exact hi.inward hin

/-- A result is right. -/
def Right (c : Env) (pf : Option Nat) (addr : Twin N → Nat) (hn : 0 < n) (rest : Multiset (Pkt N V)) (r : Work n N V × List (Pkt N V) × Bool) : Prop :=
  Inv c pf (Seen addr hn r.1) r.1.mem ((r.2.1 : Multiset (Pkt N V)) + rest) ∧ r.2.2 = false

theorem right_put {s : Work n N V} {a : Heap n N V} {rest : Multiset (Pkt N V)} (i : Fin n) (h : Inv c o.pFree (Seen addr hn s) a rest) :
    Right c o.pFree addr hn rest (put i s a, [], false) := by
  have h' : Inv c o.pFree (Seen addr hn s) a ((([] : List (Pkt N V)) : Multiset (Pkt N V)) + rest) := by simpa using h
  exact ⟨h', rfl⟩

theorem discard_inv {s : Work n N V} {h : Heap n N V} {p : Pkt N V} {rest : Multiset (Pkt N V)} (i : Fin n)
    (hi : Inv c o.pFree (Seen addr hn s) s.mem (p ::ₘ rest)) (hh : Inv c o.pFree (Seen addr hn s) h (p ::ₘ rest)) :
    Right c o.pFree addr hn rest (discard c i s h p) := by
  unfold discard
  cases p with
  | visit m d =>
    have h1 := hi.drop (w := s.mem.world) rfl (fun x => (Bal.refl _ x).cast (by simp [Pkt.held]) rfl)
    exact ⟨by simpa using h1, rfl⟩
  | create m => exact right_put i (hh.keep i)
  | connect t a => exact right_put i (hh.drop rfl (fun x => destroy_frame c c.eFree a.label _ x))
  | disconnect t k =>
    have h1 := hi.drop (w := s.mem.world) rfl (fun x => (Bal.refl _ x).cast (by simp [Pkt.held]) rfl)
    exact ⟨by simpa using h1, rfl⟩

theorem act_inv (hcata : ∀ t, (o.cata t).ux ≠ 0 → (o.cata t).val = none) (hana : ∀ t, (o.ana t).ux ≠ 0 → (o.ana t).val = none)
    {s : Work n N V} {h : Heap n N V} {p : Pkt N V} {rest : Multiset (Pkt N V)} (i : Fin n) (hi : i = (task c o res limit addr hn (n := n)).dest p)
    (hh : Inv c o.pFree (Seen addr hn s) h (p ::ₘ rest)) : Right c o.pFree addr hn rest (act c o res limit i s h p) := by
  unfold act
  cases p with
  | connect t a => exact right_put i hh.connect
  | create m =>
    dsimp only
    have : ∀ w : World, w = (if limit ≠ 0 ∧ limit < h.count i then h.world.raise Build.intOvf else h.world) → ∀ x, Bal h.world w x x := by
      rintro w rfl x
      split_ifs
      · exact Bal.raise _ _ x
      · exact Bal.refl _ x
    have h3 := hh.world (this _ rfl)
    refine right_put i (Inv.keep (h := { h with count := Function.update h.count i (h.count i + 1), world := _ }) (m := m) ?_ i)
    exact ⟨h3.bad, h3.idsNodup, h3.idsBelow, h3.carNodup, h3.car, h3.dst, h3.new, h3.nodup, h3.given, h3.blank, h3.target, h3.wf, h3.ledger⟩
  | disconnect t k =>
    dsimp only
    have hk := (hh.car (t, k) (by rw [Multiset.filterMap_cons_some Pkt.carrier (.disconnect t k) rest rfl]; simp)).1
    obtain ⟨a, ha, hak⟩ := mem_ids.1 hk
    cases hf : (h.out t).find? fun e => e.id == k with
    | none => exact absurd (List.find?_eq_none.1 hf a ha) (by simp [hak])
    | some a' =>
      have h3 : a'.id = k := by simpa using List.find?_some hf
      subst h3
      exact right_put i (hh.disconnect (List.mem_of_find?_eq_some hf))
  | visit m d =>
    have him : i = Build.lane hn (addr (m, false)) := hi
    dsimp only
    split_ifs with h1 h2
    · exact ⟨fanIn_inv (res := res) hh, rfl⟩
    · exact right_put i (hh.drop (w := alloc c h.world) rfl (fun x => (alloc_bal c _ x).cast (by simp [Pkt.held]) rfl))
    · have h3 := hh.world (w := alloc c h.world) (fun x => alloc_bal c _ x)
      have hm : ¬ Seen addr hn s m := by unfold Seen; rw [← him]; exact h1
      obtain ⟨o1, o2⟩ := fanOut_spec c o res i { h with world := alloc c h.world } m (h3.blank m (h3.new m hm)) (h3.dst m hm) hcata hana
      have h4 := h3.out hm o1 o2
      rw [Multiset.add_cons] at h4
      have h5 := fanIn_inv (res := res) h4
      have hseen : Seen addr hn (put i { s with seen := Function.update s.seen i (s.seen i ++ [m]) }
          (fanIn c o res (fanOut c o res i { h with world := alloc c h.world } m).1 m d).1) = fun x => x = m ∨ Seen addr hn s x := by
        funext x
        unfold Seen put
        dsimp only
        by_cases hx : Build.lane hn (addr (x, false)) = i
        · rw [hx, Function.update_self, List.mem_append, List.mem_singleton, eq_iff_iff, or_comm]
        · rw [Function.update_of_ne hx, eq_iff_iff]
          exact ⟨.inr, fun h => h.elim (fun h => absurd (by rw [h, ← him]) hx) id⟩
      refine ⟨?_, rfl⟩
      dsimp only
      rw [hseen, ← Multiset.coe_add, add_assoc, add_left_comm]
      exact h5

theorem inv_reach {h₀ : Heap n N V} (hr : Ready c o.pFree h₀) (hcata : ∀ t, (o.cata t).ux ≠ 0 → (o.cata t).val = none)
    (hana : ∀ t, (o.ana t).ux ≠ 0 → (o.ana t).val = none) {b : N} :
    ∀ x, Bag.Reach (task c o res limit addr hn) (.visit b none) (start h₀) x → Inv c o.pFree (Seen addr hn x.1) x.1.mem x.2 := by
  intro x hx
  induction hx with
  | init => exact inv_start hr b
  | step hr hs ih =>
    cases hs with
    | env e s m => exact ih
    | handle s p rest =>
      have ih' : Inv c o.pFree (Seen addr hn s) s.mem (p ::ₘ rest) := ih
      have key : Right c o.pFree addr hn rest (handle c o res limit ((task c o res limit addr hn (n := n)).dest p) s p) := by
        unfold handle
        obtain ⟨sample, stop, e, -⟩ := Trav.poll_eq s ((task c o res limit addr hn (n := n)).dest p)
        dsimp only
        rw [e]
        have h1 : Inv c o.pFree (Seen addr hn { s with sample := sample, stop := stop }) s.mem (p ::ₘ rest) := ih'
        have h2 := h1.world (w := { s.mem.world with err := s.err ((task c o res limit addr hn (n := n)).dest p) }) (fun x => Bal.err _ _ x)
        split_ifs
        · exact discard_inv _ h1 h2
        · exact act_inv hcata hana _ rfl h2
      have hp : Bag.produced (task c o res limit addr hn) s p + rest =
          ((handle c o res limit ((task c o res limit addr hn (n := n)).dest p) s p).2.1 : Multiset (Pkt N V)) + rest := by
        have := key.2
        unfold Bag.produced
        show _ + (if (handle c o res limit ((task c o res limit addr hn (n := n)).dest p) s p).2.2 = true then _ else _) + _ = _
        rw [this]
        simp; rfl
      dsimp only
      rw [hp]
      exact key.1

/-! ## The end -/

theorem freeLabels_bal (c : Env) (es : List (Edge N V)) (w : World) (x : Multiset (Nat × Nat)) :
    Bal w (SpawnAcc.freeLabels c (es.map Edge.label) w) (labels c es + x) x := SpawnAcc.freeLabels_bal c _ w x

theorem freeNodes_bal (c : Env) (h : Heap n N V) (ts : List (Twin N)) (w : World) (x : Multiset (Nat × Nat)) :
    Bal w (freeNodes c h ts w) ((ts.map (held c h)).sum + x) x := by
  induction ts generalizing w with
  | nil => exact (Bal.refl w x).cast (by simp) rfl
  | cons t ts ih =>
    refine ((freeLabels_bal c (h.out t) w _).trans ((destroy_frame c c.vFree (h.vertex t) _ _).trans (ih _))).cast ?_ rfl
    simp only [List.map_cons, List.sum_cons, held]; abel

theorem destroys_bal (c : Env) (d : Option Nat) (xs : List (Option (Obj V))) (w : World) (x : Multiset (Nat × Nat)) :
    Bal w (xs.foldl (fun w y => destroy c.fails d y w) w) ((xs.map (owned d)).sum + x) x := by
  induction xs generalizing w with
  | nil => exact (Bal.refl w x).cast (by simp) rfl
  | cons y ys ih =>
    refine ((destroy_frame c d y w _).trans (ih _)).cast ?_ rfl
    simp only [List.map_cons, List.sum_cons]; abel

theorem sum_flatMap {α : Type} (f : Fin n → List α) (g : α → Multiset (Nat × Nat)) :
    (((List.finRange n).flatMap f).map g).sum = ∑ i, ((f i).map g).sum := by
  rw [← List.sum_ofFn, List.ofFn_eq_map]
  generalize List.finRange n = l
  induction l with
  | nil => rfl
  | cons i l ih => simp only [List.flatMap_cons, List.map_append, List.sum_append, List.map_cons, List.sum_cons, ih]

omit [Fintype N] in
theorem survivors_coe (h : Heap n N V) : (survivors h : Multiset (Twin N)) = stocked h := by
  unfold survivors stocked
  rw [← List.sum_ofFn, List.ofFn_eq_map]
  generalize List.finRange n = l
  induction l with
  | nil => rfl
  | cons i l ih => simp only [List.flatMap_cons, List.map_cons, List.sum_cons, ← ih, ← Multiset.coe_add]

/-- Everything is held by nodes on the lists. -/
theorem sum_survivors {h : Heap n N V} (hd : (stocked h).Nodup) (f : Twin N → Multiset (Nat × Nat)) (hf : ∀ t, t ∉ stocked h → f t = 0) :
    ((survivors h).map f).sum = ∑ t, f t := by
  have h1 : (survivors h).Nodup := by rw [← Multiset.coe_nodup, survivors_coe]; exact hd
  rw [← List.sum_toFinset f h1]
  refine Finset.sum_subset (Finset.subset_univ _) fun t _ ht => hf t fun h' => ht ?_
  rw [← survivors_coe] at h'
  simpa using h'

theorem held_filter (c : Env) (h : Heap n N V) (p : Twin N → Bool) (ts : List (Twin N)) :
    (ts.map (held c h)).sum = ((ts.filter fun t => !p t).map (held c h)).sum + ((ts.filter p).map (held c h)).sum := by
  induction ts with
  | nil => rfl
  | cons t ts ih =>
    by_cases ht : p t = true
    · simp [ht, ih]; abel
    · simp [ht, ih]; abel

theorem finish_bal (e : Int) (reachable : Twin N → Bool) {s : Work n N V} {seen : N → Prop} (hi : Inv c o.pFree seen s.mem 0) :
    Bal s.mem.world (finish c o e reachable s).2 (allHeld c o.pFree s.mem) ((((finish c o e reachable s).1.getD []).map (held c s.mem)).sum) := by
  have hz : nodes s.mem (0 : Multiset (Pkt N V)) = stocked s.mem := by simp [nodes]
  have hnd := hi.nodup
  rw [hz] at hnd
  have hblank : ∀ t : Twin N, t ∉ stocked s.mem → s.mem.vertex t = none ∧ s.mem.prop t = none ∧ s.mem.out t = [] := by
    rintro ⟨m, b⟩ ht
    cases b
    · exact absurd (by rw [← hz]; exact hi.given m) ht
    · exact hi.blank m (by rw [hz]; exact ht)
  have h1 := sum_survivors hnd (held c s.mem) (fun t ht => by obtain ⟨d1, -, d3⟩ := hblank t ht; simp [held, d1, d3, owned_none])
  have h2 := sum_survivors hnd (fun t => owned o.pFree (s.mem.prop t)) (fun t ht => by simp [(hblank t ht).2.1, owned_none])
  have h3 : ((dummies s.mem).map (owned c.vFree)).sum = ∑ i, heldOld c (s.mem.old i) := sum_flatMap s.mem.old _
  have hall : allHeld c o.pFree s.mem = ((survivors s.mem).map fun t => owned o.pFree (s.mem.prop t)).sum +
      (((survivors s.mem).map (held c s.mem)).sum + ((dummies s.mem).map (owned c.vFree)).sum) := by
    rw [allHeld, Finset.sum_add_distrib, ← h1, ← h2, h3]; abel
  have hclear : ∀ w x, Bal w (clear c o s.mem w) (((survivors s.mem).map fun t => owned o.pFree (s.mem.prop t)).sum + x) x := by
    intro w x
    have := destroys_bal c o.pFree ((survivors s.mem).map s.mem.prop) w x
    rw [List.foldl_map, List.map_map] at this
    exact this
  unfold finish
  dsimp only
  have k1 := ((Bal.err s.mem.world (status s) _).trans (hclear { s.mem.world with err := status s }
    (((survivors s.mem).map (held c s.mem)).sum + ((dummies s.mem).map (owned c.vFree)).sum))).trans (Bal.raise _ e _)
  generalize World.raise (clear c o s.mem { s.mem.world with err := status s }) e = w at k1 ⊢
  rw [hall]
  have hk : ∀ gone kept : List (Twin N), ((survivors s.mem).map (held c s.mem)).sum = (gone.map (held c s.mem)).sum + (kept.map (held c s.mem)).sum →
      ∀ r : Option (List (Twin N)) × World, r = (let w' := (dummies s.mem).foldl (fun w x => destroy c.fails c.vFree x w) (freeNodes c s.mem gone w)
        if w'.err ≠ 0 then (none, freeNodes c s.mem kept w') else (some kept, w')) →
      Bal s.mem.world r.2 (((survivors s.mem).map fun t => owned o.pFree (s.mem.prop t)).sum +
        (((survivors s.mem).map (held c s.mem)).sum + ((dummies s.mem).map (owned c.vFree)).sum)) (((r.1.getD []).map (held c s.mem)).sum) := by
    rintro gone kept hs r rfl
    dsimp only
    have k2 := k1.trans (((freeNodes_bal c s.mem gone w (((dummies s.mem).map (owned c.vFree)).sum + (kept.map (held c s.mem)).sum)).cast
      (by rw [hs]; abel) rfl).trans (destroys_bal c c.vFree (dummies s.mem) _ _))
    split_ifs
    · exact k2.trans ((freeNodes_bal c s.mem kept _ 0).cast (by simp) (by simp))
    · exact k2
  by_cases hw : w.err ≠ 0
  · simp only [if_pos hw]
    exact hk (survivors s.mem) [] (by simp) _ rfl
  · simp only [if_neg hw]
    exact hk _ _ (held_filter c s.mem reachable _) _ rfl

/-! ## C121 -/

/-- As long as `cata` and `ana` never return anything along with an error, then at any time in any execution, whatever else fails and
whether there's a kill, everything made has been freed once or is held by one vertex, edge or packet, and no worker has used an edge that
isn't there; at the end, it has been freed once or is held by one vertex of the graph returned or one of its edges. -/
theorem C121_account (h₀ : Heap n N V) (hr : Ready c o.pFree h₀) (hcata : ∀ t, (o.cata t).ux ≠ 0 → (o.cata t).val = none)
    (hana : ∀ t, (o.ana t).ux ≠ 0 → (o.ana t).val = none) (b : N) (x : State n (Pkt N V) (Work n N V))
    (h : Reach (task c o res limit addr hn) (.visit b none) (start h₀) x) :
    Exact x.g.mem.world (allHeld c o.pFree x.g.mem + sent c (pending (.visit b none) x)) ∧ x.g.mem.bad = false ∧
    ∀ (e : Int) (reachable : Twin N → Bool), x.main = .done →
      Exact (finish c o e reachable x.g).2 ((((finish c o e reachable x.g).1.getD []).map (held c x.g.mem)).sum) := by
  have hi := inv_reach hr hcata hana _ (reach_bag hn h)
  refine ⟨⟨hi.wf.nodup, hi.ledger⟩, hi.bad, fun e reachable hx => ?_⟩
  have hp := (inv_finished (i₀ := (.visit b none : Pkt N V)) (reach_inv hn h) (by rw [hx]; trivial)).1
  dsimp only at hi
  rw [hp] at hi
  exact Request.Exact.bal (finish_bal e reachable hi) hi.wf (by rw [hi.ledger]; simp [sent])

theorem freeNode_sticky (c : Env) (h : Heap n N V) (t : Twin N) (w : World) (hw : w.err ≠ 0) : (freeNode c h t w).err = w.err := by
  have h1 := SpawnAcc.freeLabels_sticky c ((h.out t).map Edge.label) w hw
  exact (SpawnAcc.destroy_sticky c c.vFree (h.vertex t) _ (by rw [h1]; exact hw)).trans h1

theorem foldl_sticky {α : Type} (f : World → α → World) (hf : ∀ w a, w.err ≠ 0 → (f w a).err = w.err) (l : List α) (w : World) (hw : w.err ≠ 0) :
    (l.foldl f w).err = w.err := by
  induction l generalizing w with
  | nil => rfl
  | cons a l ih =>
    have h1 := hf w a hw
    exact (ih _ (by rw [h1]; exact hw)).trans h1

/-- A graph is returned if and only if there's no error, and then no worker has had one and pruning hasn't, either. -/
theorem C121_status (e : Int) (reachable : Twin N → Bool) (s : Work n N V) :
    ((finish c o e reachable s).1.isSome ↔ (finish c o e reachable s).2.err = 0) ∧
    ((finish c o e reachable s).1.isSome → e = 0 ∧ ∀ i, s.err i = 0) := by
  have s1 := foldl_sticky (fun w t => freeNode c s.mem t w) (fun w t hw => freeNode_sticky c s.mem t w hw)
  have s2 := foldl_sticky (fun w (x : Option (Obj V)) => destroy c.fails c.vFree x w) (fun w x hw => SpawnAcc.destroy_sticky c c.vFree x w hw)
  have s3 := foldl_sticky (fun w t => destroy c.fails o.pFree (s.mem.prop t) w) (fun w t hw => SpawnAcc.destroy_sticky c o.pFree _ w hw)
  have hq : (World.raise (clear c o s.mem { s.mem.world with err := status s }) e).err = 0 → e = 0 ∧ ∀ i, s.err i = 0 := by
    intro h0
    have h1 : (clear c o s.mem { s.mem.world with err := status s }).err = 0 := by
      by_contra h1
      exact h1 (by simpa [World.raise, h1] using h0)
    refine ⟨by simpa [World.raise, h1] using h0, ?_⟩
    have h2 : status s = 0 := by
      by_contra h2
      exact h2 ((s3 (survivors s.mem) { s.mem.world with err := status s } h2).symm.trans h1)
    rw [status, SpawnAcc.firstErr] at h2
    simpa using h2.2
  unfold finish
  dsimp only
  generalize World.raise (clear c o s.mem { s.mem.world with err := status s }) e = w at hq ⊢
  generalize (if w.err ≠ 0 then survivors s.mem else (survivors s.mem).filter fun t => !reachable t) = gone
  generalize (if w.err ≠ 0 then [] else (survivors s.mem).filter reachable) = kept
  have h3 : ((dummies s.mem).foldl (fun w x => destroy c.fails c.vFree x w) (freeNodes c s.mem gone w)).err = 0 → w.err = 0 := by
    intro h0
    by_contra h1
    have h2 := s1 gone w h1
    exact h1 (((s2 (dummies s.mem) (freeNodes c s.mem gone w) (by unfold freeNodes; rw [h2]; exact h1)).trans h2).symm.trans h0)
  generalize (dummies s.mem).foldl (fun w x => destroy c.fails c.vFree x w) (freeNodes c s.mem gone w) = w' at h3 ⊢
  by_cases h4 : w'.err ≠ 0
  · rw [if_pos h4]
    have : (freeNodes c s.mem kept w').err = w'.err := s1 kept w' h4
    simp [this, h4]
  · rw [if_neg h4]
    have h5 : w'.err = 0 := by simpa using h4
    simp only [Option.isSome_some, h5, true_iff]
    exact ⟨trivial, fun _ => hq (h3 h5)⟩

/-! ## Examples

Three nodes in a circle, with vertices, properties and labels whose destructors are 0, 2 and 1. -/

def demoEnv (bad : Nat) : Env := ⟨some 0, some 1, fun _ _ => 0, fun t => t != bad⟩

def demoHeap : Heap 2 (Fin 3) Nat where
  vertex t := if t.2 then none else some ⟨t.1, t.1⟩
  prop t := if t.2 then none else some ⟨3 + t.1, t.1⟩
  out t := if t.2 then [] else [⟨t.1, some ⟨6 + t.1, t.1⟩, (t.1 + 1, false)⟩]
  split _ := false
  stock i := if i = 0 then [(0, false), (2, false)] else [(1, false)]
  old _ := []
  count i := if i = 0 then 2 else 1
  next := 3
  bad := false
  world := ⟨9, 0, {(0, 0), (1, 0), (2, 0), (3, 2), (4, 2), (5, 2), (6, 1), (7, 1), (8, 1)}, 0, false⟩

theorem demo_ready (bad : Nat) : Ready (demoEnv bad) (some 2) demoHeap := by
  refine ⟨by decide +kernel, by decide +kernel, by decide +kernel, by decide +kernel, by decide +kernel, by decide +kernel, by decide +kernel, rfl, by decide +kernel,
    by decide +kernel, ?_⟩
  show demoHeap.world.made = demoHeap.world.freed + allHeld (demoEnv 0) (some 2) demoHeap
  decide +kernel

/-- The functions return errors at the given times, for `cata` and `ana` along with something if so specified. -/
def demoOps (stray : Bool) (fail : Nat) (e : Int) : Ops Nat :=
  let f : Nat → Outcome Nat := fun t => if t = fail then ⟨if stray then some t else none, e⟩ else ⟨some t, 0⟩
  let g : Nat → Outcome Nat := fun t => if t = fail then ⟨some t, e⟩ else ⟨some t, 0⟩
  let p : Nat → Verdict := fun t => if t = fail then ⟨true, e⟩ else ⟨t % 5 != 0, 0⟩
  ⟨fun t => if t = fail then ⟨true, e⟩ else ⟨true, 0⟩, f, f, g, some 2, p, g, p, g, p, g, p, g⟩

abbrev demoTask (bad : Nat) (stray : Bool) (fail : Nat) (e : Int) (limit : Nat) :=
  task (n := 2) (demoEnv bad) (demoOps stray fail e) (fun t => t % 4 = 0) limit (fun t : Twin (Fin 3) => t.1.val + if t.2 then 1 else 0) (by decide)

def demoRun (bad : Nat) (stray : Bool) (fail : Nat) (e : Int) (limit : Nat) : State 2 (Pkt (Fin 3) Nat) (Work 2 (Fin 3) Nat) :=
  greedy (demoTask bad stray fail e limit) (.visit 0 none) 800 (init (start demoHeap))

def demoEnd (bad : Nat) (stray : Bool) (fail : Nat) (e : Int) (limit : Nat) : Option (List (Twin (Fin 3))) × World :=
  finish (demoEnv bad) (demoOps stray fail e) 0 (fun t => t.1 != 1) (demoRun bad stray fail e limit).g

theorem demo_clean (fail : Nat) (e : Int) (t : Nat) : ((demoOps false fail e).cata t).ux ≠ 0 → ((demoOps false fail e).cata t).val = none := by
  unfold demoOps; dsimp only; split_ifs <;> simp_all

/-- The hypotheses are met by these runs: one without errors, after which four vertices remain, one with a failing allocation, one with an
error of a labeler, and one that exceeds the limit. -/
example : Ready (demoEnv 1000) (demoOps false 1000 7).pFree demoHeap ∧
    (∀ t, ((demoOps false 45 7).cata t).ux ≠ 0 → ((demoOps false 45 7).cata t).val = none) ∧
    (∀ t, ((demoOps false 45 7).ana t).ux ≠ 0 → ((demoOps false 45 7).ana t).val = none) ∧
    Reach (demoTask 1000 false 45 7 0) (.visit 0 none) (start demoHeap) (demoRun 1000 false 45 7 0) ∧ (demoRun 1000 false 45 7 0).main = .done ∧
    (demoEnd 1000 false 45 7 0).1 = none ∧ (demoEnd 1000 false 45 7 0).2.made.card = 31 ∧ (demoEnd 1000 false 45 7 0).2.freed.card = 31 ∧
    (demoRun 1000 false 1000 7 0).main = .done ∧ ((demoEnd 1000 false 1000 7 0).1.getD []).length = 4 ∧
    (demoEnd 1000 false 1000 7 0).2.made.card = 31 ∧ (demoEnd 1000 false 1000 7 0).2.freed.card = 20 ∧
    (demoRun 47 false 1000 7 0).main = .done ∧ (demoEnd 47 false 1000 7 0).2.err = 12 ∧ (demoEnd 47 false 1000 7 0).2.freed.card = 31 ∧
    (demoRun 1000 false 1000 7 1).main = .done ∧ (demoEnd 1000 false 1000 7 1).2.err = Build.intOvf ∧ (demoEnd 1000 false 1000 7 1).2.freed.card = 27 :=
  ⟨demo_ready 1000, demo_clean 45 7, demo_clean 45 7, greedy_reach _ _ .init, by decide +kernel, by decide +kernel, by decide +kernel, by decide +kernel,
    by decide +kernel, by decide +kernel, by decide +kernel, by decide +kernel, by decide +kernel, by decide +kernel, by decide +kernel,
    by decide +kernel, by decide +kernel, by decide +kernel⟩

/-- This is the defect: if `cata` or `ana` returns something along with an error, it may be lost.  In these runs `cata` is called at the
time 11 and `ana` at the time 16. -/
theorem C121_lost :
    (∃ x, Reach (demoTask 1000 true 11 7 0) (.visit 0 none) (start demoHeap) x ∧ x.main = .done ∧
      ∀ e reachable, (finish (demoEnv 1000) (demoOps true 11 7) e reachable x.g).1 = none ∧
        (finish (demoEnv 1000) (demoOps true 11 7) e reachable x.g).2.made = (finish (demoEnv 1000) (demoOps true 11 7) e reachable x.g).2.freed + {(11, 0)}) ∧
    (∃ x, Reach (demoTask 1000 true 16 7 0) (.visit 0 none) (start demoHeap) x ∧ x.main = .done ∧
      ∀ e reachable, (finish (demoEnv 1000) (demoOps true 16 7) e reachable x.g).1 = none ∧
        (finish (demoEnv 1000) (demoOps true 16 7) e reachable x.g).2.made = (finish (demoEnv 1000) (demoOps true 16 7) e reachable x.g).2.freed + {(16, 0)}) := by
  have raise : ∀ (w : World) (e : Int), w.err ≠ 0 → World.raise w e = w := by
    intro w e h
    simp only [World.raise, if_pos h]
  have key : ∀ (k : Nat) (w : World), clear (demoEnv 1000) (demoOps true k 7) (demoRun 1000 true k 7 0).g.mem
      { (demoRun 1000 true k 7 0).g.mem.world with err := status (demoRun 1000 true k 7 0).g } = w → w.err ≠ 0 → ∀ e reachable,
      finish (demoEnv 1000) (demoOps true k 7) e reachable (demoRun 1000 true k 7 0).g =
        finish (demoEnv 1000) (demoOps true k 7) 0 (fun _ => true) (demoRun 1000 true k 7 0).g := by
    intro k w hw hk e reachable
    unfold finish
    dsimp only
    rw [hw, raise w e hk, raise w 0 hk]
    simp only [if_pos hk]
  refine ⟨⟨demoRun 1000 true 11 7 0, greedy_reach _ _ .init, by decide +kernel, fun e reachable => ?_⟩,
    ⟨demoRun 1000 true 16 7 0, greedy_reach _ _ .init, by decide +kernel, fun e reachable => ?_⟩⟩
  · rw [key 11 _ rfl (by decide +kernel)]
    exact ⟨by decide +kernel, by decide +kernel⟩
  · rw [key 16 _ rfl (by decide +kernel)]
    exact ⟨by decide +kernel, by decide +kernel⟩

end Cru.SplitAcc
