import Verif.Spec.ComposeAcc
import Verif.Proofs.PostponeAcc
import Verif.Props.Gather

/-! # Balances of storage in `cru_composed` -/

namespace Cru.ComposeAcc

open Net Fold
open MergeAcc (Bal)
open Request (Env alloc edge destroy_frame alloc_bal edge_bal Exact)
open SpawnAcc (Verdict applied_bal)
open SplitAcc (passed passed_bal)
open DedupAcc (Edge labels freeEdges freeEdges_bal dedup dedup_bal labels_perm)

variable {n : Nat} {N V : Type} {c : Env} {o : Ops V} {addr : N → Nat} {h h' h'' : Heap n N V} {m : N} {S : Multiset N}

/-- Everything a node holds. -/
def full (c : Env) (o : Ops V) (h : Heap n N V) (m : N) : Multiset (Nat × Nat) :=
  held c h m + (labels c (h.bypass m) + propsHeld o (h.props m))

/-- Everything some nodes hold. -/
def total (c : Env) (o : Ops V) (S : Multiset N) (h : Heap n N V) : Multiset (Nat × Nat) := (S.map (full c o h)).sum

/-- Only a single node is changed. -/
structure Local (c : Env) (o : Ops V) (m : N) (h h' : Heap n N V) : Prop where
  bal : ∀ y, Bal h.world h'.world (full c o h m + y) (full c o h' m + y)
  off : ∀ x, x ≠ m → full c o h' x = full c o h x
  stock : h'.stock = h.stock

theorem Local.refl (c : Env) (o : Ops V) (m : N) (h : Heap n N V) : Local c o m h h := ⟨fun _ => Bal.refl _ _, fun _ _ => rfl, rfl⟩

theorem Local.trans (a : Local c o m h h') (b : Local c o m h' h'') : Local c o m h h'' :=
  ⟨fun y => (a.bal y).trans (b.bal y), fun x hx => (b.off x hx).trans (a.off x hx), b.stock.trans a.stock⟩

theorem Local.world (c : Env) (o : Ops V) (m : N) (h : Heap n N V) {w : World} (hb : ∀ y, Bal h.world w y y) : Local c o m h { h with world := w } :=
  ⟨fun _ => hb _, fun _ _ => rfl, rfl⟩

theorem Local.total [DecidableEq N] (a : Local c o m h h') (hS : S.Nodup) (hm : m ∈ S) (y : Multiset (Nat × Nat)) :
    Bal h.world h'.world (total c o S h + y) (ComposeAcc.total c o S h' + y) := by
  obtain ⟨T, rfl⟩ := Multiset.exists_cons_of_mem hm
  have hT : ∀ x ∈ T, x ≠ m := fun x hx he => (Multiset.nodup_cons.1 hS).1 (he ▸ hx)
  have : T.map (full c o h') = T.map (full c o h) := Multiset.map_congr rfl fun x hx => a.off x (hT x hx)
  unfold ComposeAcc.total
  rw [Multiset.map_cons, Multiset.map_cons, Multiset.sum_cons, Multiset.sum_cons, this, add_assoc, add_assoc]
  exact a.bal _

theorem turn_local {f : Heap n N V → Heap n N V} (hf : ∀ h, Local c o m h (f h)) (i : Fin n) (h : Heap n N V) : Local c o m h (turn i f h) := by
  have a : Local c o m h { h with world := { h.world with err := h.err i } } := Local.world c o m h fun y => Bal.err _ _ y
  have b := a.trans (hf _)
  exact ⟨b.bal, b.off, b.stock⟩

theorem runs_inv {f : Fin n → N → Heap n N V → Heap n N V} {P : (Fin n → List N) → Heap n N V → Prop}
    (hn : ∀ todo h i m ms, P todo h → todo i = m :: ms → P (Function.update todo i ms) (turn i (f i m) h))
    (hf : ∀ todo h i e, P todo h → P todo (turn i (fun h => { h with world := h.world.raise e }) h))
    (hk : ∀ todo (h : Heap n N V) i, P todo h → P todo { h with stop := Function.update h.stop i true })
    {todo : Fin n → List N} (hr : Runs f todo h h') (hp : P todo h) : ∃ todo', (∀ i, todo' i = []) ∧ P todo' h' := by
  induction hr with
  | done hd => exact ⟨_, hd, hp⟩
  | next i m ms hm _ ih => exact ih (hn _ _ _ _ _ hp hm)
  | fail i e _ ih => exact ih (hf _ _ _ _ hp)
  | kill i _ ih => exact ih (hk _ _ _ hp)

/-- What is held by some nodes is accounted for since an earlier time. -/
structure Since (c : Env) (o : Ops V) (S : Multiset N) (h₀ : Heap n N V) (todo : Fin n → List N) (h : Heap n N V) : Prop where
  bal : ∀ y, Bal h₀.world h.world (total c o S h₀ + y) (total c o S h + y)
  stock : h.stock = h₀.stock
  todo : ∀ i, ∀ m ∈ todo i, m ∈ S

theorem Since.refl {todo : Fin n → List N} (ht : ∀ i, ∀ m ∈ todo i, m ∈ S) : Since c o S h todo h := ⟨fun _ => Bal.refl _ _, rfl, ht⟩

theorem mem_todo {todo : Fin n → List N} {i : Fin n} {ms : List N} (hm : todo i = m :: ms) {j : Fin n} {x : N}
    (hx : x ∈ Function.update todo i ms j) : x ∈ todo j := by
  by_cases hj : j = i
  · subst hj; rw [Function.update_self] at hx; rw [hm]; exact List.mem_cons_of_mem _ hx
  · rwa [Function.update_of_ne hj] at hx

theorem Since.next [DecidableEq N] {h₀ : Heap n N V} {todo : Fin n → List N} {i : Fin n} {ms : List N} (a : Since c o S h₀ todo h) (hS : S.Nodup)
    (hm : todo i = m :: ms) (hl : Local c o m h h') : Since c o S h₀ (Function.update todo i ms) h' :=
  ⟨fun y => (a.bal y).trans (hl.total hS (a.todo i m (by rw [hm]; exact List.mem_cons_self)) y), hl.stock.trans a.stock,
    fun j x hx => a.todo j x (mem_todo hm hx)⟩

theorem Since.fail {h₀ : Heap n N V} {todo : Fin n → List N} {i : Fin n} (a : Since c o S h₀ todo h) (e : Int) :
    Since c o S h₀ todo (turn i (fun h => { h with world := h.world.raise e }) h) :=
  ⟨fun y => (a.bal y).trans ((Bal.err h.world (h.err i) _).trans (Bal.raise _ e _)), a.stock, a.todo⟩

theorem Since.kill {h₀ : Heap n N V} {todo : Fin n → List N} {i : Fin n} (a : Since c o S h₀ todo h) :
    Since c o S h₀ todo { h with stop := Function.update h.stop i true } := ⟨a.bal, a.stock, a.todo⟩

theorem runs_bal [DecidableEq N] {f : Fin n → N → Heap n N V → Heap n N V} (hf : ∀ i m h, Local c o m h (f i m h)) (hS : S.Nodup) {todo : Fin n → List N}
    (hr : Runs f todo h h') (ht : ∀ i, ∀ m ∈ todo i, m ∈ S) :
    (∀ y, Bal h.world h'.world (total c o S h + y) (total c o S h' + y)) ∧ h'.stock = h.stock := by
  obtain ⟨t, -, a⟩ := runs_inv (P := Since c o S h) (fun _ _ i m ms a hm => a.next hS hm (turn_local (hf i m) i _)) (fun _ _ _ e a => a.fail e)
    (fun _ _ _ a => a.kill) hr (.refl ht)
  exact ⟨a.bal, a.stock⟩

/-! ## Single steps -/

theorem full_props [DecidableEq N] (h : Heap n N V) (m x : N) (p : Option (Props V)) (w : World) :
    full c o ({ h with props := Function.update h.props m p, world := w } : Heap n N V) x =
      if x = m then held c h m + (labels c (h.bypass m) + propsHeld o p) else full c o h x := by
  unfold full
  by_cases hx : x = m
  · subst hx; simp [held]
  · simp [hx, held]

theorem guardIt_local [DecidableEq N] (hm : h.props m = none) : Local c o m h (guardIt c o m h) := by
  unfold guardIt
  by_cases h1 : h.world.err ≠ 0
  · rw [if_pos h1]; exact .refl c o m h
  rw [if_neg h1]
  by_cases h2 : (alloc c h.world).err ≠ 0
  · rw [if_pos h2]; exact .world c o m h fun y => alloc_bal c _ y
  rw [if_neg h2]
  have ha : ∀ y, Bal h.world (alloc c (alloc c h.world)) y y := fun y => (alloc_bal c _ y).trans (alloc_bal c _ y)
  by_cases h3 : (alloc c (alloc c h.world)).err ≠ 0
  · rw [if_pos h3]; exact .world c o m h ha
  rw [if_neg h3]
  generalize alloc c (alloc c h.world) = w0 at ha
  dsimp only
  have hl := applied_bal o.locals o.lFree w0
  generalize applied o.locals o.lFree w0 = l at hl ⊢
  by_cases h4 : l.2.err ≠ 0
  · rw [if_pos h4]
    exact .world c o m h fun y => (ha y).trans ((hl y).trans (destroy_frame c o.lFree l.1 l.2 y))
  rw [if_neg h4]
  have hd := applied_bal o.adjacent o.aFree l.2
  generalize applied o.adjacent o.aFree l.2 = a at hd ⊢
  by_cases h5 : a.2.err ≠ 0
  · rw [if_pos h5]
    exact .world c o m h fun y => (ha y).trans ((hl y).trans ((hd _).trans ((destroy_frame c o.aFree a.1 a.2 _).trans (destroy_frame c o.lFree l.1 _ y))))
  rw [if_neg h5]
  refine ⟨fun y => ?_, fun x hx => by rw [full_props, if_neg hx], rfl⟩
  rw [full_props, if_pos rfl]
  refine ((ha _).trans ((hl _).trans (hd _))).cast rfl ?_
  simp only [full, hm, propsHeld]
  abel

theorem freeProps_local [DecidableEq N] (c : Env) (o : Ops V) (m : N) (h : Heap n N V) : Local c o m h (freeProps c o m h) := by
  unfold freeProps
  cases hp : h.props m with
  | none => exact .refl c o m h
  | some p =>
    dsimp only
    refine ⟨fun y => ?_, fun x hx => by rw [full_props, if_neg hx], rfl⟩
    rw [full_props, if_pos rfl]
    refine ((destroy_frame c o.lFree p.loc h.world _).trans (destroy_frame c o.aFree p.adj _ _)).cast ?_ rfl
    simp only [full, hp, propsHeld]
    abel

theorem freeProps_props [DecidableEq N] (c : Env) (o : Ops V) (m : N) (h : Heap n N V) : (freeProps c o m h).props = Function.update h.props m none := by
  unfold freeProps
  cases hp : h.props m with
  | none => dsimp only; exact (Function.update_eq_self_iff.2 hp.symm).symm
  | some p => rfl

theorem freeProps_rest [DecidableEq N] (c : Env) (o : Ops V) (m : N) (h : Heap n N V) :
    (freeProps c o m h).bypass = h.bypass ∧ (freeProps c o m h).out = h.out ∧ (freeProps c o m h).vertex = h.vertex ∧
    (freeProps c o m h).stock = h.stock ∧ (freeProps c o m h).err = h.err ∧ (freeProps c o m h).nodes = h.nodes := by
  unfold freeProps
  cases hp : h.props m <;> exact ⟨rfl, rfl, rfl, rfl, rfl, rfl⟩

theorem mark_spec (c : Env) (o : Ops V) (l : Option (Obj V)) (a : Acc N V) :
    (mark c o l a).queue = a.queue ∧ ∀ y, Bal a.world (mark c o l a).world y y := by
  unfold mark
  split_ifs
  · exact ⟨rfl, fun y => Bal.refl _ y⟩
  · exact ⟨rfl, fun y => alloc_bal c _ y⟩
  · exact ⟨rfl, fun y => alloc_bal c _ y⟩

theorem labels_append (c : Env) (a b : List (Edge N V)) : labels c (a ++ b) = labels c a + labels c b := by
  simp [labels, SpawnAcc.heldLabels]

theorem composeOne_spec (c : Env) (o : Ops V) (props : N → Option (Props V)) (l : Option (Obj V)) (a : Acc N V) (f : Edge N V) :
    (∀ y, Bal a.world (composeOne c o props l a f).world (labels c a.queue + y) (labels c (composeOne c o props l a f).queue + y)) ∧
    ∀ e ∈ (composeOne c o props l a f).queue, e ∈ a.queue ∨ e.dst = f.dst := by
  unfold composeOne
  split_ifs with h1
  · exact ⟨fun y => Bal.refl _ _, fun e he => .inl he⟩
  dsimp only
  have hv := passed_bal o.qpred a.world
  generalize passed o.qpred a.world = v at hv ⊢
  by_cases h2 : v.1 = false
  · rw [if_pos h2]; exact ⟨fun y => hv _, fun e he => .inl he⟩
  rw [if_neg h2]
  obtain ⟨k1, k2⟩ := mark_spec c o l { a with world := v.2 }
  generalize mark c o l { a with world := v.2 } = k at k1 k2 ⊢
  dsimp only at k1 k2
  by_cases h3 : k.world.err ≠ 0
  · rw [if_pos h3, k1]; exact ⟨fun y => (hv _).trans (k2 _), fun e he => .inl he⟩
  rw [if_neg h3]
  have ht := applied_bal o.qop c.eFree k.world
  generalize applied o.qop c.eFree k.world = t at ht ⊢
  have he := edge_bal c t.1 none [] t.2
  have hc := Request.edge_cases c t.1 none [] t.2
  generalize edge c t.1 none [] t.2 = y at he hc ⊢
  dsimp only
  rw [k1]
  constructor
  · intro z
    refine (((hv _).trans (k2 _)).trans ((ht _).trans ((he (labels c a.queue + z)).cast ?_ ?_))).cast rfl rfl
    · simp [Fold.owned_none]
    · rw [labels_append]
      rcases hc with hc | hc
      · simp [hc]
      · simp only [hc, List.map_cons, List.map_nil, List.sum_cons, List.sum_nil, Request.Edge.held, Fold.owned_none, labels, SpawnAcc.heldLabels]
        abel
  · intro e hm
    rcases List.mem_append.1 hm with hm | hm
    · exact .inl hm
    · obtain ⟨z, -, rfl⟩ := List.mem_map.1 hm
      exact .inr rfl

theorem composeRow_spec (c : Env) (o : Ops V) (props : N → Option (Props V)) (l : Option (Obj V)) (fs : List (Edge N V)) (a : Acc N V) :
    (∀ y, Bal a.world (fs.foldl (composeOne c o props l) a).world (labels c a.queue + y) (labels c (fs.foldl (composeOne c o props l) a).queue + y)) ∧
    ∀ e ∈ (fs.foldl (composeOne c o props l) a).queue, e ∈ a.queue ∨ ∃ f ∈ fs, e.dst = f.dst := by
  induction fs generalizing a with
  | nil => exact ⟨fun y => Bal.refl _ _, fun e he => .inl he⟩
  | cons f fs ih =>
    obtain ⟨a1, a2⟩ := composeOne_spec c o props l a f
    obtain ⟨b1, b2⟩ := ih (composeOne c o props l a f)
    rw [List.foldl_cons]
    refine ⟨fun y => (a1 y).trans (b1 y), fun e he => ?_⟩
    rcases b2 e he with h1 | ⟨g, h1, h2⟩
    · rcases a2 e h1 with h1 | h1
      · exact .inl h1
      · exact .inr ⟨f, List.mem_cons_self, h1⟩
    · exact .inr ⟨g, List.mem_cons_of_mem _ h1, h2⟩

theorem composeAll_spec (c : Env) (o : Ops V) (h : Heap n N V) (m : N) (a : Acc N V) :
    (∀ y, Bal a.world (composeAll c o h m a).world (labels c a.queue + y) (labels c (composeAll c o h m a).queue + y)) ∧
    ∀ e ∈ (composeAll c o h m a).queue, e ∈ a.queue ∨ ∃ e' ∈ h.out m, ∃ f ∈ h.out e'.dst, e.dst = f.dst := by
  unfold composeAll
  generalize h.out m = es
  induction es generalizing a with
  | nil => exact ⟨fun y => Bal.refl _ _, fun e he => .inl he⟩
  | cons e' es ih =>
    obtain ⟨a1, a2⟩ := composeRow_spec c o h.props e'.label (h.out e'.dst) a
    obtain ⟨b1, b2⟩ := ih ((h.out e'.dst).foldl (composeOne c o h.props e'.label) a)
    rw [List.foldl_cons]
    refine ⟨fun y => (a1 y).trans (b1 y), fun e he => ?_⟩
    rcases b2 e he with h1 | ⟨g, h1, h2⟩
    · rcases a2 e h1 with h1 | h1
      · exact .inl h1
      · exact .inr ⟨e', List.mem_cons_self, h1⟩
    · exact .inr ⟨g, List.mem_cons_of_mem _ h1, h2⟩

theorem composeIt_local [DecidableEq N] (c : Env) (o : Ops V) (addr : N → Nat) (i : Fin n) (m : N) (h : Heap n N V) :
    Local c o m h (composeIt c o addr i m h) := by
  unfold composeIt
  by_cases h1 : h.stop i = true ∨ h.world.err ≠ 0
  · rw [if_pos h1]; exact .refl c o m h
  rw [if_neg h1]
  by_cases h2 : h.bypass m ≠ []
  · rw [if_pos h2]; exact .world c o m h fun y => Bal.raise _ _ y
  rw [if_neg h2]
  cases hp : h.props m with
  | none => exact .refl c o m h
  | some p =>
    dsimp only
    obtain ⟨a1, -⟩ := composeAll_spec c o h m ⟨[], p.doomed, h.world⟩
    generalize composeAll c o h m ⟨[], p.doomed, h.world⟩ = a at a1 ⊢
    have d1 := dedup_bal c o.same addr a.queue a.world
    generalize dedup c o.same addr a.queue a.world = d at d1 ⊢
    refine ⟨fun y => ?_, fun x hx => by simp [full, held, hx], rfl⟩
    refine ((a1 (full c o h m + y)).trans (d1 (full c o h m + y))).cast (by simp [labels, SpawnAcc.heldLabels]) ?_
    · simp only [full, held, propsHeld, not_not.1 h2, hp, Function.update_self]
      simp only [labels, SpawnAcc.heldLabels, List.map_nil, List.sum_nil]
      abel

theorem bypassed_local [DecidableEq N] (c : Env) (o : Ops V) (addr : N → Nat) (i : Fin n) (m : N) (h : Heap n N V) :
    Local c o m h (bypassed c o addr i m h) := by
  unfold bypassed
  cases hp : h.props m with
  | none => exact .refl c o m h
  | some p =>
    dsimp only
    have d1 : ∀ y, Bal h.world (if h.world.err ≠ 0 then (h.out m ++ h.bypass m, h.world) else dedup c o.same addr (h.out m ++ h.bypass m) h.world).2
        (labels c (h.out m ++ h.bypass m) + y)
        (labels c (if h.world.err ≠ 0 then (h.out m ++ h.bypass m, h.world) else dedup c o.same addr (h.out m ++ h.bypass m) h.world).1 + y) := by
      intro y
      split_ifs
      · exact Bal.refl _ _
      · exact dedup_bal c o.same addr _ _ y
    generalize (if h.world.err ≠ 0 then (h.out m ++ h.bypass m, h.world) else dedup c o.same addr (h.out m ++ h.bypass m) h.world) = d at d1 ⊢
    refine ⟨fun y => ?_, fun x hx => by simp [full, held, hx], rfl⟩
    have hperm : labels c d.1 = labels c (d.1.filter fun e => Edge.doomed p e) + labels c (d.1.filter fun e => !Edge.doomed p e) := by
      rw [← labels_append]
      exact labels_perm c (List.filter_append_perm _ _).symm
    have h1 := (d1 (owned c.vFree (h.vertex m) + propsHeld o (some p) + y)).trans ((freeEdges_bal c (d.1.filter fun e => Edge.doomed p e) d.2
      (labels c (d.1.filter fun e => !Edge.doomed p e) + (owned c.vFree (h.vertex m) + propsHeld o (some p) + y))).cast (by rw [hperm]; abel) rfl)
    refine h1.cast ?_ ?_
    · rw [labels_append]; simp only [full, held, hp]; abel
    · simp only [full, held, hp, Function.update_self]
      simp only [labels, SpawnAcc.heldLabels, List.map_nil, List.sum_nil]
      abel

theorem bypassIt_local [DecidableEq N] (c : Env) (o : Ops V) (addr : N → Nat) (i : Fin n) (m : N) (h : Heap n N V) :
    Local c o m h (bypassIt c o addr i m h) := (bypassed_local c o addr i m h).trans (freeProps_local c o m _)

theorem unhook_local [DecidableEq N] (c : Env) (o : Ops V) (h : Heap n N V) (m : N) : Local c o m h (unhook c o h m) := by
  refine (freeProps_local c o m h).trans ?_
  unfold unhook
  generalize freeProps c o m h = a
  dsimp only
  refine ⟨fun y => ?_, fun x hx => by simp [full, held, hx], rfl⟩
  refine (freeEdges_bal c (a.bypass m) a.world (held c a m + propsHeld o (a.props m) + y)).cast ?_ ?_
  · simp only [full]; abel
  · simp only [full, held, Function.update_self]
    simp only [labels, SpawnAcc.heldLabels, List.map_nil, List.sum_nil]
    abel

end Cru.ComposeAcc
