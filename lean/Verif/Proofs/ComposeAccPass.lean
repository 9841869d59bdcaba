import Verif.Proofs.ComposeAccEnd

/-! # The passes of `cru_composed` one after another -/

namespace Cru.ComposeAcc

open Net Fold
open MergeAcc (Bal)
open Request (Env alloc edge destroy_frame alloc_bal edge_bal Exact)
open SpawnAcc (Verdict applied_bal heldLabels freeLabels freeLabels_bal)
open DedupAcc (Edge labels freeEdges freeEdges_bal freeEdges_sticky destroy_sticky raise_sticky dedup dedup_bal dedup_dst dedup_err labels_perm)
open PostponeAcc (foldl_zero)

variable {n : Nat} {N V : Type} {c : Env} {o : Ops V} {addr : N → Nat} {hn : 0 < n} {b : N} {h h' h'' : Heap n N V} {m : N} {S : Multiset N}

theorem status_zero {late : Int} (h0 : status h late = 0) (j : Fin n) : h.err j = 0 :=
  (foldl_zero _ _ h0).2 _ (List.mem_append_left _ (List.mem_map_of_mem (List.mem_finRange j)))

/-! ## Nodes without properties have no other edges -/

/-- Only nodes in `S` have properties, and only nodes with properties have other edges. -/
structure Tidy (S : Multiset N) (h : Heap n N V) : Prop where
  by' : ∀ m, h.props m = none → h.bypass m = []
  props : ∀ m, h.props m ≠ none → m ∈ S

theorem guardIt_frame [DecidableEq N] (c : Env) (o : Ops V) (m : N) (h : Heap n N V) :
    (guardIt c o m h).bypass = h.bypass ∧ (guardIt c o m h).out = h.out ∧ (guardIt c o m h).stock = h.stock ∧
    (∀ x, x ≠ m → (guardIt c o m h).props x = h.props x) ∧ (guardIt c o m h).err = h.err := by
  unfold guardIt
  dsimp only
  split_ifs <;> refine ⟨rfl, rfl, rfl, fun x hx => ?_, rfl⟩ <;> simp [hx]

theorem freeProps_off [DecidableEq N] (c : Env) (o : Ops V) (m : N) (h : Heap n N V) (x : N) (hx : (freeProps c o m h).props x ≠ none) :
    h.props x ≠ none := by
  rw [freeProps_props] at hx
  by_cases hm : x = m
  · subst hm; simp at hx
  · rwa [Function.update_of_ne hm] at hx

theorem freeProps_fold [DecidableEq N] (c : Env) (o : Ops V) (l : List N) (h : Heap n N V) :
    (l.foldl (fun h m => freeProps c o m h) h).bypass = h.bypass ∧ (l.foldl (fun h m => freeProps c o m h) h).out = h.out ∧
    (l.foldl (fun h m => freeProps c o m h) h).stock = h.stock ∧ (l.foldl (fun h m => freeProps c o m h) h).err = h.err ∧
    ∀ x, (l.foldl (fun h m => freeProps c o m h) h).props x ≠ none → h.props x ≠ none := by
  induction l generalizing h with
  | nil => exact ⟨rfl, rfl, rfl, rfl, fun _ hx => hx⟩
  | cons m l ih =>
    rw [List.foldl_cons]
    obtain ⟨a1, a2, a3, a4, a5⟩ := ih (freeProps c o m h)
    obtain ⟨b1, b2, -, b4, b5, -⟩ := freeProps_rest c o m h
    exact ⟨a1.trans b1, a2.trans b2, a3.trans b4, a4.trans b5, fun x hx => freeProps_off c o m h x (a5 x hx)⟩

theorem settle_frame [DecidableEq N] (c : Env) (o : Ops V) (h : Heap n N V) (i : Fin n) :
    (settle c o h i).bypass = h.bypass ∧ (settle c o h i).out = h.out ∧ (settle c o h i).stock = h.stock ∧
    (∀ j, (settle c o h i).err j = 0 → h.err j = 0) ∧ ∀ x, (settle c o h i).props x ≠ none → h.props x ≠ none := by
  unfold settle
  split_ifs with h1
  · unfold turn
    dsimp only
    have a := freeProps_fold c o (h.stock i) { h with world := { h.world with err := h.err i } }
    have s := foldl_sticky (f := fun h m => freeProps c o m h) (fun h m => freeProps_sticky m) (h.stock i) (h := { h with world := { h.world with err := h.err i } }) h1
    obtain ⟨a1, a2, a3, a4, a5⟩ := a
    refine ⟨a1, a2, a3, fun j hj => ?_, a5⟩
    rw [s, a4] at hj
    by_cases hji : j = i
    · subst hji; rw [Function.update_self] at hj; exact absurd hj h1
    · rwa [Function.update_of_ne hji] at hj
  · exact ⟨rfl, rfl, rfl, fun _ hj => hj, fun _ hx => hx⟩

theorem settles_frame [DecidableEq N] (c : Env) (o : Ops V) (l : List (Fin n)) (h : Heap n N V) :
    (l.foldl (settle c o) h).bypass = h.bypass ∧ (l.foldl (settle c o) h).out = h.out ∧ (l.foldl (settle c o) h).stock = h.stock ∧
    (∀ j, (l.foldl (settle c o) h).err j = 0 → h.err j = 0) ∧ ∀ x, (l.foldl (settle c o) h).props x ≠ none → h.props x ≠ none := by
  induction l generalizing h with
  | nil => exact ⟨rfl, rfl, rfl, fun _ hj => hj, fun _ hx => hx⟩
  | cons i l ih =>
    rw [List.foldl_cons]
    obtain ⟨a1, a2, a3, a4, a5⟩ := ih (settle c o h i)
    obtain ⟨b1, b2, b3, b4, b5⟩ := settle_frame c o h i
    exact ⟨a1.trans b1, a2.trans b2, a3.trans b3, fun j hj => b4 j (a4 j hj), fun x hx => b5 x (a5 x hx)⟩

/-! ## Guarding -/

/-- While properties are computed. -/
structure GInv (c : Env) (o : Ops V) (S : Multiset N) (h₀ : Heap n N V) (td : Fin n → List N) (h : Heap n N V) : Prop extends Since c o S h₀ td h where
  nodup : (bag td).Nodup
  fresh : ∀ i, ∀ m ∈ td i, h.props m = none
  bypass : h.bypass = h₀.bypass
  out : h.out = h₀.out
  props : ∀ m, h.props m ≠ none → m ∈ S

theorem GInv.next [DecidableEq N] {h₀ : Heap n N V} {todo : Fin n → List N} {i : Fin n} {ms : List N} (a : GInv c o S h₀ todo h) (hS : S.Nodup)
    (hm : todo i = m :: ms) : GInv c o S h₀ (Function.update todo i ms) (turn i (guardIt c o m) h) := by
  have hmi : m ∈ todo i := by rw [hm]; exact List.mem_cons_self
  have hb : bag todo = m ::ₘ bag (Function.update todo i ms) := by
    rw [bag_split todo i, bag_split (Function.update todo i ms) i, hm, Function.update_self, Function.update_idem, ← Multiset.cons_coe, Multiset.cons_add]
  have hd := a.nodup
  rw [hb] at hd
  have hp : h.props m = none := a.fresh i m hmi
  obtain ⟨b1, b2, b3, b4, -⟩ := guardIt_frame c o m { h with world := { h.world with err := h.err i } }
  have hl : Local c o m h (turn i (guardIt c o m) h) := by
    have p : Local c o m h { h with world := { h.world with err := h.err i } } := Local.world c o m h fun y => Bal.err _ _ y
    have q := p.trans (guardIt_local (c := c) (o := o) (h := { h with world := { h.world with err := h.err i } }) hp)
    exact ⟨q.bal, q.off, q.stock⟩
  refine ⟨a.toSince.next hS hm hl, (Multiset.nodup_cons.1 hd).2, fun j x hx => ?_, b1.trans a.bypass, b2.trans a.out, fun x hx => ?_⟩
  · have hxm : x ≠ m := fun he => (Multiset.nodup_cons.1 hd).1 (he ▸ mem_bag.2 ⟨j, hx⟩)
    exact (b4 x hxm).trans (a.fresh j x (mem_todo hm hx))
  · by_cases hxm : x = m
    · subst hxm; exact a.todo i x hmi
    · exact a.props x (by rw [← show _ = h.props x from b4 x hxm]; exact hx)

theorem sum_split (c : Env) (v : N → Option (Obj V)) (es : N → List (Option (Obj V))) (l : List N) :
    (l.map fun m => owned c.vFree (v m) + heldLabels c (es m)).sum = (l.map fun m => owned c.vFree (v m)).sum + heldLabels c (l.flatMap es) := by
  induction l with
  | nil => rfl
  | cons m l ih =>
    rw [List.map_cons, List.sum_cons, ih, List.map_cons, List.sum_cons, List.flatMap_cons]
    simp only [heldLabels, List.map_append, List.sum_append]
    abel

/-- The state after guarding. -/
structure Guard (c : Env) (o : Ops V) (h h' : Heap n N V) : Prop where
  bal : ∀ y, Bal h.world h'.world (graphHeld c h + sideHeld c h + y) (total c o (bag h'.stock) h' + y)
  stock : bag h'.stock = (h.nodes : Multiset N)
  tidy : (∀ m, h.bypass m = []) → Tidy (bag h'.stock) h'
  out : (∀ j, h'.err j = 0) → h'.out = h.out
  bypass : h'.bypass = h.bypass

theorem guarded_guard [DecidableEq N] (wf : (graph b h).WF) (bare : ∀ m, h.props m = none)
    (hg : Guarded c o addr hn b h h') : Guard c o h h' := by
  obtain ⟨heap, reserve, x, h₁, hx, hd, hk, hr, he, rfl⟩ := hg
  have g := Gather.C129_gathered wf hx hd
  set h₀ : Heap n N V := fresh { h with nodes := [], stock := x.g.deletions, out := fun m => (x.g.out m).map fun e => ⟨e.1, e.2⟩ } with hh₀
  have hst : bag h₀.stock = (h.nodes : Multiset N) := by
    have h1 : bag h₀.stock = ((Gather.survivors x.g : List N) : Multiset N) := (bag_survivors h₀).symm
    rw [h1]
    exact Multiset.coe_eq_coe.2 g.nodes
  have hS : (bag h₀.stock).Nodup := by rw [hst]; exact Multiset.coe_nodup.2 wf.nodup
  have hrev : bag (fun i => (x.g.deletions i).reverse) = bag h₀.stock := by
    unfold bag
    exact Finset.sum_congr rfl fun i _ => Multiset.coe_eq_coe.2 (List.reverse_perm _)
  obtain ⟨t, -, a⟩ := runs_inv (P := GInv c o (bag h₀.stock) h₀) (fun _ _ i m ms a hm => a.next hS hm)
    (fun _ _ _ e a => ⟨a.toSince.fail e, a.nodup, a.fresh, a.bypass, a.out, a.props⟩)
    (fun _ _ _ a => ⟨a.toSince.kill, a.nodup, a.fresh, a.bypass, a.out, a.props⟩) hr
    ⟨.refl fun i m hm => mem_bag.2 ⟨i, List.mem_reverse.1 hm⟩, by rw [hrev]; exact hS, fun _ m _ => bare m, rfl, rfl, fun m hm => absurd (bare m) hm⟩
  set h₂ : Heap n N V := { h₁ with world := freeLabels c x.g.labels h₁.world } with hh₂
  have hs₂ : h₂.stock = h₀.stock := a.stock
  have k : Keeps c o h₂ ((List.finRange n).foldl (settle c o) h₂) := .foldl settle_keeps _ (by rw [hs₂]; exact hS)
  obtain ⟨f1, f2, f3, f4, f5⟩ := settles_frame c o (List.finRange n) h₂
  have hT : total c o (bag h₀.stock) h₀ = (h.nodes.map (held c h₀)).sum + sideHeld c h := by
    rw [hst]
    unfold total sideHeld
    rw [Multiset.map_coe, Multiset.sum_coe, ← List.sum_map_add]
    congr 1
    refine List.map_congr_left fun m _ => ?_
    have : h₀.props m = none := bare m
    simp only [full, this, propsHeld, add_zero]
    rfl
  have hG : graphHeld c h = heldLabels c x.g.labels + (h.nodes.map (held c h₀)).sum := by
    have h1 := sum_split c h.vertex (fun m => (h.out m).map Edge.label) h.nodes
    have h2 := sum_split c h.vertex (fun m => (x.g.out m).map Prod.fst) h.nodes
    have h3 : (x.g.labels ++ h.nodes.flatMap fun m => (x.g.out m).map Prod.fst).Perm (h.nodes.flatMap fun m => (h.out m).map Edge.label) := by
      have := g.labels
      simpa [graph, List.map_map, Function.comp_def] using this
    have h4 : heldLabels c x.g.labels + heldLabels c (h.nodes.flatMap fun m => (x.g.out m).map Prod.fst) =
        heldLabels c (h.nodes.flatMap fun m => (h.out m).map Edge.label) := by
      unfold heldLabels
      rw [← List.sum_append, ← List.map_append]
      exact (h3.map _).sum_eq
    have h5 : (h.nodes.map (held c h₀)).sum = (h.nodes.map fun m => owned c.vFree (h.vertex m) + heldLabels c ((x.g.out m).map Prod.fst)).sum := by
      congr 1
      refine List.map_congr_left fun m _ => ?_
      simp [held, labels, hh₀, fresh, List.map_map, Function.comp_def]
    show (h.nodes.map fun m => owned c.vFree (h.vertex m) + heldLabels c ((h.out m).map Edge.label)).sum = _
    rw [h1, h5, h2, ← h4]
    abel
  refine ⟨fun y => ?_, by rw [f3, hs₂, hst], fun half => ⟨fun m _ => ?_, fun m hm => ?_⟩, fun hj => ?_, ?_⟩
  · have b1 := a.bal (heldLabels c x.g.labels + y)
    have b2 := freeLabels_bal c x.g.labels h₁.world (total c o (bag h₀.stock) h₁ + y)
    have b3 := k.bal y
    rw [hs₂] at b3
    refine ((b1.cast ?_ ?_).trans b2).trans b3
    · rw [hG, hT]; abel
    · abel
  · rw [f1]; exact (congrFun a.bypass m).trans (half m)
  · rw [f3, hs₂]; exact a.props m (f5 m hm)
  · have hi := Gather.C129_intact hx fun i => ⟨by
      have := f4 i (hj i)
      by_contra h1
      exact (he i).2 (by simpa using h1) this, hk i⟩
    rw [f2]
    refine a.out.trans ?_
    funext m
    have : x.g.out m = (h.out m).map fun e => (e.label, e.dst) := by rw [hi.1]; rfl
    simp [hh₀, fresh, this, List.map_map, Function.comp_def]
  · rw [f1]; exact a.bypass

/-! ## Composing and bypassing -/

/-- All edges of nodes in `S` lead to nodes in `S`. -/
def Closed (S : Multiset N) (h : Heap n N V) : Prop := ∀ m ∈ S, ∀ e ∈ h.out m ++ h.bypass m, e.dst ∈ S

theorem dedup_closed (c : Env) (o : Ops V) {addr : N → Nat} (ha : Function.Injective addr) {es : List (Edge N V)} {w : World}
    (hs : ∀ e ∈ es, e.dst ∈ S) : ∀ e ∈ (dedup c o.same addr es w).1, e.dst ∈ S := by
  intro e he
  by_cases hw : (dedup c o.same addr es w).2.err = 0
  · obtain ⟨f, h1, h2⟩ := (dedup_dst c o.same addr ha es w hw e.dst).1 ⟨e, he, rfl⟩
    rw [← h2]; exact hs f h1
  · rw [dedup_err c o.same addr es w hw] at he; simp at he

theorem composeIt_tidy [DecidableEq N] (i : Fin n) (m : N) (ht : Tidy S h) : Tidy S (composeIt c o addr i m h) := by
  unfold composeIt
  split_ifs
  · exact ht
  · exact ⟨ht.by', ht.props⟩
  · cases hp : h.props m with
    | none => exact ht
    | some p =>
      dsimp only
      constructor
      · intro x hx
        dsimp only at hx ⊢
        by_cases hxm : x = m
        · subst hxm; simp at hx
        · rw [Function.update_of_ne hxm] at hx ⊢; exact ht.by' x hx
      · intro x hx
        dsimp only at hx
        by_cases hxm : x = m
        · subst hxm; exact ht.props x (by rw [hp]; simp)
        · rw [Function.update_of_ne hxm] at hx; exact ht.props x hx

theorem composeIt_closed [DecidableEq N] (ha : Function.Injective addr) (i : Fin n) {m : N} (hm : m ∈ S) (hc : Closed S h) :
    Closed S (composeIt c o addr i m h) := by
  unfold composeIt
  split_ifs
  · exact hc
  · exact hc
  · cases hp : h.props m with
    | none => exact hc
    | some p =>
      dsimp only
      have hq : ∀ e ∈ (composeAll c o h m ⟨[], p.doomed, h.world⟩).queue, e.dst ∈ S := by
        intro e he
        rcases (composeAll_spec c o h m ⟨[], p.doomed, h.world⟩).2 e he with h1 | ⟨e', h1, f, h2, h3⟩
        · simp at h1
        · rw [h3]
          exact hc e'.dst (hc m hm e' (List.mem_append_left _ h1)) f (List.mem_append_left _ h2)
      intro x hx e he
      dsimp only at he
      by_cases hxm : x = m
      · subst hxm
        rw [Function.update_self] at he
        rcases List.mem_append.1 he with h1 | h1
        · exact hc x hx e (List.mem_append_left _ h1)
        · exact dedup_closed c o ha hq e h1
      · rw [Function.update_of_ne hxm] at he; exact hc x hx e he

/-- A node is bypassed once and for all. -/
theorem bypassIt_spec [DecidableEq N] (c : Env) (o : Ops V) (addr : N → Nat) (i : Fin n) (m : N) (h : Heap n N V) :
    (bypassIt c o addr i m h).props = Function.update h.props m none ∧
    ((h.props m = none → h.bypass m = []) → (bypassIt c o addr i m h).bypass = Function.update h.bypass m []) := by
  unfold bypassIt
  rw [freeProps_props, (freeProps_rest c o m _).1]
  unfold bypassed
  cases hp : h.props m with
  | none =>
    refine ⟨rfl, fun hb => ?_⟩
    dsimp only
    rw [← hb rfl, Function.update_eq_self]
  | some p => exact ⟨rfl, fun _ => rfl⟩

theorem bypassIt_closed [DecidableEq N] (ha : Function.Injective addr) (i : Fin n) (m : N) (hc : Closed S h) :
    Closed S (bypassIt c o addr i m h) := by
  unfold bypassIt Closed
  rw [(freeProps_rest c o m _).1, (freeProps_rest c o m _).2.1]
  unfold bypassed
  cases hp : h.props m with
  | none => exact hc
  | some p =>
    dsimp only
    intro x hx e he
    by_cases hxm : x = m
    · subst hxm
      rw [Function.update_self, Function.update_self, List.append_nil] at he
      have he := List.mem_of_mem_filter he
      split_ifs at he
      · exact hc x hx e he
      · exact dedup_closed c o ha (hc x hx) e he
    · rw [Function.update_of_ne hxm, Function.update_of_ne hxm] at he; exact hc x hx e he

theorem composed_tidy [DecidableEq N] {e : Int} (hc : Composed c o addr h h' e) (ht : Tidy S h) : Tidy S h' := by
  rcases hc with ⟨rfl, -⟩ | ⟨late, hr, -⟩
  · exact ht
  · have ht : Tidy S (fresh h) := ⟨ht.by', ht.props⟩
    obtain ⟨_, _, a⟩ := runs_inv (P := fun _ h => Tidy S h) (fun _ h i m ms a _ => by
        have b := composeIt_tidy (c := c) (o := o) (addr := addr) (h := { h with world := { h.world with err := h.err i } }) i m ⟨a.by', a.props⟩
        exact ⟨b.by', b.props⟩) (fun _ _ _ _ a => ⟨a.by', a.props⟩) (fun _ _ _ a => ⟨a.by', a.props⟩) hr ht
    exact a

theorem composed_closed [DecidableEq N] (ha : Function.Injective addr) {e : Int} (hc : Composed c o addr h h' e) (hb : ∀ i, ∀ m ∈ h.stock i, m ∈ S)
    (ht : Closed S h) : Closed S h' := by
  rcases hc with ⟨rfl, -⟩ | ⟨late, hr, -⟩
  · exact ht
  · obtain ⟨_, _, a⟩ := runs_inv (P := fun td h => (∀ i, ∀ m ∈ td i, m ∈ S) ∧ Closed S h) (fun _ h i m ms a hm => by
        refine ⟨fun j x hx => a.1 j x (mem_todo hm hx), ?_⟩
        exact composeIt_closed (c := c) (o := o) (h := { h with world := { h.world with err := h.err i } }) ha i
          (a.1 i m (by rw [hm]; exact List.mem_cons_self)) a.2) (fun _ _ _ _ a => a) (fun _ _ _ a => a) hr ⟨hb, ht⟩
    exact a.2

/-- No other edges and no properties. -/
def Clean (h : Heap n N V) : Prop := ∀ m, h.bypass m = [] ∧ h.props m = none

theorem decompose_clean [DecidableEq N] (i : Fin n) (hc : Clean h) : Clean (decompose c o h i) :=
  fun m => unhooks c o (h.stock i) h (.inr (hc m))

theorem retires_clean [DecidableEq N] (l : List (Fin n)) (hc : Clean h) : Clean (l.foldl (retire c o) h) := by
  induction l generalizing h with
  | nil => exact hc
  | cons i l ih =>
    rw [List.foldl_cons]
    apply ih
    unfold retire
    split_ifs
    · exact decompose_clean (h := { h with world := { h.world with err := h.err i } }) i hc
    · exact hc

theorem bypassing_clean [DecidableEq N] (ht : Tidy (bag h.stock) h) (hr : Runs (bypassIt c o addr) h.stock (fresh h) h') : Clean h' := by
  obtain ⟨t, t0, a1, a2⟩ := runs_inv (P := fun td (h : Heap n N V) => (∀ m, h.props m = none → h.bypass m = []) ∧ ∀ m, h.props m ≠ none → ∃ i, m ∈ td i)
    (fun td h i m ms a hm => by
      obtain ⟨b1, b2⟩ := bypassIt_spec c o addr i m { h with world := { h.world with err := h.err i } }
      have b2 := b2 (a.1 m)
      constructor
      · intro x hx
        show (bypassIt c o addr i m { h with world := { h.world with err := h.err i } }).bypass x = []
        have hx : (bypassIt c o addr i m { h with world := { h.world with err := h.err i } }).props x = none := hx
        rw [b1] at hx
        rw [b2]
        by_cases hxm : x = m
        · subst hxm; simp
        · rw [Function.update_of_ne hxm] at hx ⊢; exact a.1 x hx
      · intro x hx
        have hx : (bypassIt c o addr i m { h with world := { h.world with err := h.err i } }).props x ≠ none := hx
        rw [b1] at hx
        by_cases hxm : x = m
        · subst hxm; simp at hx
        · rw [Function.update_of_ne hxm] at hx
          obtain ⟨j, hj⟩ := a.2 x hx
          refine ⟨j, ?_⟩
          by_cases hji : j = i
          · subst hji
            rw [Function.update_self]
            rw [hm] at hj
            exact (List.mem_cons.1 hj).resolve_left hxm
          · rwa [Function.update_of_ne hji])
    (fun _ _ _ _ a => a) (fun _ _ _ a => a) hr ⟨ht.by', fun m hm => mem_bag.1 (ht.props m hm)⟩
  intro m
  have hp : h'.props m = none := by
    by_contra hp
    obtain ⟨i, hi⟩ := a2 m hp
    rw [t0] at hi; simp at hi
  exact ⟨a1 m hp, hp⟩

theorem unhooks_err [DecidableEq N] (c : Env) (o : Ops V) (l : List N) (h : Heap n N V) : (l.foldl (unhook c o) h).err = h.err := by
  induction l generalizing h with
  | nil => rfl
  | cons m l ih =>
    rw [List.foldl_cons, ih]
    exact (freeProps_rest c o m h).2.2.2.2.1

theorem retire_err [DecidableEq N] (h : Heap n N V) (i j : Fin n) (hj : (retire c o h i).err j = 0) : h.err j = 0 := by
  unfold retire at hj
  split_ifs at hj with h1
  · unfold turn at hj
    dsimp only at hj
    have s := decompose_sticky (c := c) (o := o) i (h := { h with world := { h.world with err := h.err i } }) h1
    have he : (decompose c o { h with world := { h.world with err := h.err i } } i).err = h.err := by
      exact unhooks_err c o (h.stock i) { h with world := { h.world with err := h.err i } }
    rw [s, he] at hj
    by_cases hji : j = i
    · subst hji; rw [Function.update_self] at hj; exact absurd hj h1
    · rwa [Function.update_of_ne hji] at hj
  · exact hj

theorem retires_none [DecidableEq N] (l : List (Fin n)) (h : Heap n N V) (hj : ∀ j, (l.foldl (retire c o) h).err j = 0) : l.foldl (retire c o) h = h := by
  have key : ∀ j, h.err j = 0 := by
    induction l generalizing h with
    | nil => exact hj
    | cons i l ih =>
      rw [List.foldl_cons] at hj
      exact fun j => retire_err h i j (ih _ hj j)
  clear hj
  induction l with
  | nil => rfl
  | cons i l ih =>
    rw [List.foldl_cons]
    have : retire c o h i = h := by unfold retire; rw [if_neg (not_not.2 (key i))]
    rw [this, ih]

/-! ## A whole pass -/

theorem first_zero {es : List Int} (he : first es = 0) : ∀ e ∈ es, e = 0 := (foldl_zero _ _ he).2

theorem first_ne {es : List Int} {e : Int} (he : e ∈ es) (h0 : e ≠ 0) : first es ≠ 0 := fun h => h0 (first_zero h e he)

/-- What holds after a pass. -/
structure Passed (c : Env) (o : Ops V) (h h' : Heap n N V) : Prop where
  bal : ∀ y, Bal h.world h'.world (graphHeld c h + sideHeld c h + y) (total c o (bag h'.stock) h' + y)
  nodup : (bag h'.stock).Nodup

theorem pass_spec [DecidableEq N] {e₀ e : Int} (wf : (graph b h).WF) (bare : ∀ m, h.props m = none)
    (hp : Pass c o addr hn b e₀ h h' e) : Passed c o h h' ∧ ((∀ m, h.bypass m = []) → e = 0 → Clean h') := by
  obtain ⟨h₁, h₂, late, e₂, e₃, g, p₁, p₂, rfl⟩ := hp
  have G := guarded_guard wf bare g
  have n₁ : (bag h₁.stock).Nodup := by rw [G.stock]; exact Multiset.coe_nodup.2 wf.nodup
  have k₁ := composed_keeps p₁ n₁
  have n₂ := k₁.nodup n₁
  have k₂ := bypassed_keeps p₂ n₂
  refine ⟨⟨fun y => (G.bal y).trans ((k₁.bal y).trans (k₂.bal y)), k₂.nodup n₂⟩, fun half he => ?_⟩
  have z := first_zero he
  have hs : h₂.stock = h₁.stock := by
    rcases p₁ with ⟨rfl, -⟩ | ⟨late, hr, -⟩
    · rfl
    · exact (runs_bal (composeIt_local c o addr) n₁ hr fun i m hm => mem_bag.2 ⟨i, hm⟩).2
  have t : Tidy (bag h₂.stock) h₂ := by rw [hs]; exact composed_tidy p₁ (G.tidy half)
  rcases p₂ with ⟨-, h0⟩ | ⟨late, h₃, hr, rfl, -⟩
  · exact absurd (z e₃ (by simp)) h0
  · exact retires_clean _ (bypassing_clean t hr)

theorem runs_closed [DecidableEq N] (ha : Function.Injective addr) {td : Fin n → List N} (hr : Runs (bypassIt c o addr) td h h') (ht : Closed S h) : Closed S h' := by
  obtain ⟨_, _, a⟩ := runs_inv (P := fun _ h => Closed S h) (fun _ h i m ms a hm =>
    bypassIt_closed (c := c) (o := o) (h := { h with world := { h.world with err := h.err i } }) ha i m a) (fun _ _ _ _ a => a) (fun _ _ _ a => a) hr ht
  exact a

/-- Without an error, all nodes are still there, and edges lead to them. -/
theorem pass_closed [DecidableEq N] (ha : Function.Injective addr) {e₀ : Int} (wf : (graph b h).WF) (half : ∀ m, h.bypass m = []) (bare : ∀ m, h.props m = none)
    (hp : Pass c o addr hn b e₀ h h' 0) : bag h'.stock = (h.nodes : Multiset N) ∧ Closed (bag h'.stock) h' := by
  obtain ⟨h₁, h₂, late, e₂, e₃, g, p₁, p₂, he⟩ := hp
  have z := first_zero he.symm
  have G := guarded_guard wf bare g
  have n₁ : (bag h₁.stock).Nodup := by rw [G.stock]; exact Multiset.coe_nodup.2 wf.nodup
  have hs : h₂.stock = h₁.stock := by
    rcases p₁ with ⟨rfl, -⟩ | ⟨late, hr, -⟩
    · rfl
    · exact (runs_bal (composeIt_local c o addr) n₁ hr fun i m hm => mem_bag.2 ⟨i, hm⟩).2
  have c₁ : Closed (bag h₁.stock) h₁ := by
    intro m hm e he
    rw [G.bypass, half m, List.append_nil, G.out (status_zero (late := late) (z _ (by simp)))] at he
    rw [G.stock] at hm ⊢
    have hm := (wf.reach m).1 (Multiset.mem_coe.1 hm)
    refine Multiset.mem_coe.2 ((wf.reach e.dst).2 (hm.tail ?_))
    simp only [Gr.next, graph, Bool.false_eq_true, if_false, List.map_map]
    exact List.mem_map.2 ⟨e, he, rfl⟩
  have c₂ := composed_closed ha p₁ (fun i m hm => mem_bag.2 ⟨i, hm⟩) c₁
  rcases p₂ with ⟨-, h0⟩ | ⟨late', h₃, hr, hh, h0⟩
  · exact absurd (z e₃ (by simp)) h0
  · have hq : (List.finRange n).foldl (retire c o) h₃ = h₃ := retires_none _ _ (by
      rw [← hh]; exact status_zero (late := late') (by rw [← h0]; exact z e₃ (by simp)))
    rw [hq] at hh
    subst hh
    have hs₃ : h'.stock = h₂.stock := (runs_bal (bypassIt_local c o addr) (by rw [hs]; exact n₁) hr fun i m hm => mem_bag.2 ⟨i, hm⟩).2
    rw [hs₃, hs]
    exact ⟨G.stock, runs_closed ha hr c₂⟩

/-! ## Pruning and freeing -/

theorem prune_bal {kept gone : List N} (e : Int) (hd : Divides b h kept gone) (hc : Clean h) (y : Multiset (Nat × Nat)) :
    Bal h.world (prune c kept gone e h).2.world (total c o (bag h.stock) h + y) (graphHeld c (prune c kept gone e h).2 + y) := by
  have ht : total c o (bag h.stock) h = (kept.map (held c h)).sum + (gone.map (held c h)).sum := by
    rw [← bag_survivors, ← Multiset.coe_eq_coe.2 hd.all, total_held fun m _ => hc m, List.map_append, List.sum_append]
  have b1 : Bal h.world (freeNodes c h gone ({ h.world with err := 0 }.raise e)) (total c o (bag h.stock) h + y) ((kept.map (held c h)).sum + y) := by
    refine ((Bal.err h.world 0 _).trans (Bal.raise _ e _)).trans ((freeNodes_bal c h gone _ ((kept.map (held c h)).sum + y)).cast ?_ rfl)
    rw [ht]; abel
  unfold prune
  dsimp only
  split_ifs
  · refine b1.trans ((freeNodes_bal c h kept _ y).cast rfl ?_)
    simp [graphHeld]
  · exact b1

theorem prune_err {kept gone : List N} (e : Int) (h : Heap n N V) :
    ((prune c kept gone e h).1 = true → (prune c kept gone e h).2.world.err = 0 ∧ (prune c kept gone e h).2.nodes = kept) ∧
    ((prune c kept gone e h).1 = false → (prune c kept gone e h).2.world.err ≠ 0 ∧ (prune c kept gone e h).2.nodes = []) ∧
    (prune c kept gone e h).2.bypass = h.bypass ∧ (prune c kept gone e h).2.props = h.props ∧ (prune c kept gone e h).2.out = h.out := by
  unfold prune
  dsimp only
  by_cases h1 : (freeNodes c h gone ({ h.world with err := 0 }.raise e)).err ≠ 0
  · rw [if_pos h1]
    exact ⟨fun h => by simp at h, fun _ => ⟨by rw [freeNodes_sticky _ _ h1]; exact h1, rfl⟩, rfl, rfl, rfl⟩
  · rw [if_neg h1]
    exact ⟨fun _ => ⟨not_not.1 h1, rfl⟩, fun h => by simp at h, rfl, rfl, rfl⟩

theorem prune_ready {kept gone : List N} {e : Int} (hr : Ready c b h) (hp : Passed c o h h') (hc : Clean h') (hd : Divides b h' kept gone)
    (ht : (prune c kept gone e h').1 = true) : Ready c b (prune c kept gone e h').2 := by
  obtain ⟨p1, -, p3, p4, p5⟩ := prune_err (c := c) (kept := kept) (gone := gone) e h'
  have hb := (hp.bal 0).trans (prune_bal (c := c) (o := o) e hd hc 0)
  have hside : sideHeld c h = 0 := by simp [sideHeld, hr.half]
  simp only [add_zero, hside] at hb
  have hw : h.world.WF := ⟨hr.past, hr.exact.1⟩
  refine ⟨⟨?_, fun m => ?_⟩, fun m => by rw [p3]; exact (hc m).1, fun m => by rw [p4]; exact (hc m).2, (hb.wf hw).past, Exact.bal hb hw hr.exact.2⟩
  · show (prune c kept gone e h').2.nodes.Nodup
    rw [(p1 ht).2]
    have h1 : (kept ++ gone).Nodup := by
      rw [← Multiset.coe_nodup, Multiset.coe_eq_coe.2 hd.all, bag_survivors]
      exact hp.nodup
    exact (List.nodup_append.1 h1).1
  · show m ∈ (prune c kept gone e h').2.nodes ↔ _
    rw [(p1 ht).2, hd.kept]
    have : (graph b (prune c kept gone e h').2).next false = fun m => (h'.out m).map Edge.dst := by
      funext x
      simp [Gr.next, graph, p5, List.map_map, Function.comp_def]
    rw [this]
    rfl

theorem decomposes_stock [DecidableEq N] (c : Env) (o : Ops V) (l : List (Fin n)) (h : Heap n N V) (i : Fin n) (hi : i ∈ l ∨ h.stock i = []) :
    (l.foldl (decompose c o) h).stock i = [] := by
  induction l generalizing h with
  | nil => simpa using hi
  | cons j l ih =>
    rw [List.foldl_cons]
    apply ih
    rw [decompose_stock]
    by_cases hj : i = j
    · subst hj; simp
    · rw [Function.update_of_ne hj]
      exact hi.imp_left fun h1 => (List.mem_cons.1 h1).resolve_left hj

theorem decomposes_bal [DecidableEq N] (h : Heap n N V) (hb : (bag h.stock).Nodup) :
    Bal h.world ((List.finRange n).foldl (decompose c o) h).world (total c o (bag h.stock) h) 0 := by
  have k := (Keeps.foldl (c := c) (o := o) (f := decompose c o) (fun h i hb => decompose_keeps i hb) (List.finRange n) hb).bal 0
  have : bag ((List.finRange n).foldl (decompose c o) h).stock = 0 := by
    unfold bag
    exact Finset.sum_eq_zero fun i _ => by rw [decomposes_stock c o _ h i (.inl (List.mem_finRange i))]; rfl
  rw [this] at k
  simpa [total] using k

/-- Incoming edges are never added while they're being removed. -/
theorem half_empty [DecidableEq N] {L : Type} {out inn₀ : N → List (L × N)} {addr : N → Nat} {hn : 0 < n} {b : N}
    {x : State n (Duplex.Pkt N L) (Trav.Job n N (N → List (L × N)))} (hx : Net.Reach (Duplex.half out addr hn) (b, none) (Trav.start inn₀) x)
    (hd : x.main = .done) (m : N) (hm : inn₀ m = []) : x.g.mem m = [] := by
  have hI : (Duplex.halfRover out inn₀ addr hn).I (Trav.start inn₀) := fun m => ⟨fun h => (by cases h), fun _ => rfl⟩
  have hi := Rover.inv_reach (W := Duplex.halfRover out inn₀ addr hn) (fun i => rfl) hI rfl _ (Rover.done_bag hn hx hd)
  by_cases h : m ∈ x.g.seen (Build.lane hn (addr m))
  · exact (hi.I m).1 h
  · exact ((hi.I m).2 h).trans hm

end Cru.ComposeAcc
