import Verif.Proofs.ComposeAcc

/-! # Balances of the passes of `cru_composed` -/

namespace Cru.ComposeAcc

open Net Fold
open MergeAcc (Bal)
open Request (Env alloc edge destroy_frame alloc_bal edge_bal Exact)
open SpawnAcc (Verdict applied_bal)
open DedupAcc (Edge labels freeEdges freeEdges_bal freeEdges_sticky destroy_sticky raise_sticky dedup dedup_bal labels_perm)
open PostponeAcc (sum_at)

variable {n : Nat} {N V : Type} {c : Env} {o : Ops V} {addr : N → Nat} {h h' h'' : Heap n N V} {m : N} {S : Multiset N}

/-- The nodes on the lists of all ports. -/
def bag (s : Fin n → List N) : Multiset N := ∑ i, (s i : Multiset N)

theorem bag_survivors (h : Heap n N V) : ((survivors h : List N) : Multiset N) = bag h.stock := by
  unfold survivors bag
  rw [← List.sum_ofFn, List.ofFn_eq_map]
  generalize List.finRange n = l
  induction l with
  | nil => rfl
  | cons i l ih => rw [List.flatMap_cons, ← Multiset.coe_add, ih, List.map_cons, List.sum_cons]

theorem mem_bag {s : Fin n → List N} : m ∈ bag s ↔ ∃ i, m ∈ s i := by
  unfold bag
  rw [Multiset.mem_sum]
  simp

theorem bag_split (s : Fin n → List N) (i : Fin n) : bag s = (s i : Multiset N) + bag (Function.update s i []) := by
  obtain ⟨r, h1, h2⟩ := sum_at (fun j => ((Function.update s i [] j : List N) : Multiset N)) (fun j => (s j : Multiset N)) i
    (fun t ht => by rw [Function.update_of_ne ht])
  rw [Function.update_self] at h1
  unfold bag
  rw [h1, h2]
  simp

/-! ## Freeing nodes -/

theorem freeNodes_bal (c : Env) (h : Heap n N V) (ms : List N) (w : World) (x : Multiset (Nat × Nat)) :
    Bal w (freeNodes c h ms w) ((ms.map (held c h)).sum + x) x := by
  induction ms generalizing w with
  | nil => exact (Bal.refl w x).cast (by simp) rfl
  | cons m ms ih =>
    unfold freeNodes
    rw [List.foldl_cons]
    refine ((freeEdges_bal c (h.out m) w (owned c.vFree (h.vertex m) + ((ms.map (held c h)).sum + x))).cast ?_ rfl).trans
      ((destroy_frame c c.vFree (h.vertex m) _ _).trans (ih _))
    simp only [List.map_cons, List.sum_cons, held]
    abel

theorem freeNodes_sticky (h : Heap n N V) (ms : List N) {w : World} (hw : w.err ≠ 0) : (freeNodes c h ms w).err = w.err := by
  induction ms generalizing w with
  | nil => rfl
  | cons m ms ih =>
    have h1 : (destroy c.fails c.vFree (h.vertex m) (freeEdges c (h.out m) w)).err = w.err := by
      rw [destroy_sticky _ _ (by rw [freeEdges_sticky _ hw]; exact hw), freeEdges_sticky _ hw]
    unfold freeNodes
    rw [List.foldl_cons]
    exact (ih (by rw [h1]; exact hw)).trans h1

theorem freeProps_sticky [DecidableEq N] (m : N) {h : Heap n N V} (hw : h.world.err ≠ 0) : (freeProps c o m h).world.err = h.world.err := by
  unfold freeProps
  split
  · rfl
  · dsimp only
    rw [destroy_sticky _ _ (by rw [destroy_sticky _ _ hw]; exact hw), destroy_sticky _ _ hw]

theorem unhook_sticky [DecidableEq N] (m : N) {h : Heap n N V} (hw : h.world.err ≠ 0) : (unhook c o h m).world.err = h.world.err := by
  unfold unhook
  dsimp only
  rw [freeEdges_sticky _ (by rw [freeProps_sticky m hw]; exact hw), freeProps_sticky m hw]

theorem foldl_sticky {α : Type} {f : Heap n N V → α → Heap n N V} (hf : ∀ h x, h.world.err ≠ 0 → (f h x).world.err = h.world.err) (l : List α)
    {h : Heap n N V} (hw : h.world.err ≠ 0) : (l.foldl f h).world.err = h.world.err := by
  induction l generalizing h with
  | nil => rfl
  | cons x l ih => rw [List.foldl_cons, ih (by rw [hf h x hw]; exact hw), hf h x hw]

theorem decompose_sticky [DecidableEq N] (i : Fin n) {h : Heap n N V} (hw : h.world.err ≠ 0) : (decompose c o h i).world.err = h.world.err := by
  unfold decompose
  dsimp only
  have h1 := foldl_sticky (f := unhook c o) (fun h m hw => unhook_sticky m hw) (h.stock i) hw
  rw [freeNodes_sticky _ _ (by rw [h1]; exact hw), h1]

/-- What a list of local steps does. -/
theorem foldl_local [DecidableEq N] {f : Heap n N V → N → Heap n N V} (hf : ∀ h m, Local c o m h (f h m)) (hS : S.Nodup) (l : List N) (hl : ∀ m ∈ l, m ∈ S)
    (h : Heap n N V) : (∀ y, Bal h.world (l.foldl f h).world (total c o S h + y) (total c o S (l.foldl f h) + y)) ∧ (l.foldl f h).stock = h.stock := by
  induction l generalizing h with
  | nil => exact ⟨fun y => Bal.refl _ _, rfl⟩
  | cons m l ih =>
    rw [List.foldl_cons]
    obtain ⟨a, b⟩ := ih (fun x hx => hl x (List.mem_cons_of_mem _ hx)) (f h m)
    exact ⟨fun y => ((hf h m).total hS (hl m List.mem_cons_self) y).trans (a y), b.trans (hf h m).stock⟩

theorem unhook_eq [DecidableEq N] (c : Env) (o : Ops V) (h : Heap n N V) (m : N) :
    (unhook c o h m).bypass = Function.update h.bypass m [] ∧ (unhook c o h m).props = Function.update h.props m none := by
  unfold unhook
  dsimp only
  rw [(freeProps_rest c o m h).1, freeProps_props]
  exact ⟨rfl, rfl⟩

theorem unhooks [DecidableEq N] (c : Env) (o : Ops V) (l : List N) (h : Heap n N V) {m : N} (hm : m ∈ l ∨ (h.bypass m = [] ∧ h.props m = none)) :
    (l.foldl (unhook c o) h).bypass m = [] ∧ (l.foldl (unhook c o) h).props m = none := by
  induction l generalizing h with
  | nil => simpa using hm
  | cons x l ih =>
    rw [List.foldl_cons]
    apply ih
    obtain ⟨a, b⟩ := unhook_eq c o h x
    rw [a, b]
    by_cases hx : m = x
    · subst hx; simp
    · rw [Function.update_of_ne hx, Function.update_of_ne hx]
      exact hm.imp_left fun h1 => (List.mem_cons.1 h1).resolve_left hx

theorem total_add (c : Env) (o : Ops V) (S T : Multiset N) (h : Heap n N V) : total c o (S + T) h = total c o S h + total c o T h := by
  simp [total]

theorem total_held {l : List N} (hl : ∀ m ∈ l, h.bypass m = [] ∧ h.props m = none) : total c o (l : Multiset N) h = (l.map (held c h)).sum := by
  unfold total
  rw [Multiset.map_coe, Multiset.sum_coe]
  congr 1
  refine List.map_congr_left fun m hm => ?_
  obtain ⟨a, b⟩ := hl m hm
  simp [full, a, b, propsHeld]

theorem decompose_stock [DecidableEq N] (c : Env) (o : Ops V) (h : Heap n N V) (i : Fin n) : (decompose c o h i).stock = Function.update h.stock i [] := by
  unfold decompose
  dsimp only
  congr 1
  generalize h.stock i = l
  induction l generalizing h with
  | nil => rfl
  | cons m l ih => rw [List.foldl_cons, ih, (unhook_local c o h m).stock]

theorem decompose_bal [DecidableEq N] (h : Heap n N V) (i : Fin n) (hb : (bag h.stock).Nodup) (y : Multiset (Nat × Nat)) :
    Bal h.world (decompose c o h i).world (total c o (bag h.stock) h + y) (total c o (bag (decompose c o h i).stock) (decompose c o h i) + y) := by
  rw [decompose_stock]
  obtain ⟨a, -⟩ := foldl_local (unhook_local c o) hb (h.stock i) (fun m hm => mem_bag.2 ⟨i, hm⟩) h
  have u := fun m (hm : m ∈ h.stock i) => unhooks c o (h.stock i) h (.inl hm)
  unfold decompose
  dsimp only
  generalize (h.stock i).foldl (unhook c o) h = d at a u ⊢
  refine (a y).trans ((freeNodes_bal c d (h.stock i) d.world (total c o (bag (Function.update h.stock i [])) d + y)).cast ?_ rfl)
  rw [bag_split h.stock i, total_add, total_held u, add_assoc]

/-- Local changes or lists that get emptied. -/
structure Keeps (c : Env) (o : Ops V) (h h' : Heap n N V) : Prop where
  bal : ∀ y, Bal h.world h'.world (total c o (bag h.stock) h + y) (total c o (bag h'.stock) h' + y)
  sub : bag h'.stock ≤ bag h.stock

theorem Keeps.refl (c : Env) (o : Ops V) (h : Heap n N V) : Keeps c o h h := ⟨fun _ => Bal.refl _ _, le_refl _⟩

theorem Keeps.trans (a : Keeps c o h h') (b : Keeps c o h' h'') : Keeps c o h h'' := ⟨fun y => (a.bal y).trans (b.bal y), b.sub.trans a.sub⟩

theorem Keeps.world (c : Env) (o : Ops V) (h : Heap n N V) {w : World} (hb : ∀ y, Bal h.world w y y) : Keeps c o h { h with world := w } := ⟨fun _ => hb _, le_refl _⟩

theorem Keeps.nodup (a : Keeps c o h h') (hb : (bag h.stock).Nodup) : (bag h'.stock).Nodup := Multiset.nodup_of_le a.sub hb

theorem Keeps.turn {f : Heap n N V → Heap n N V} {i : Fin n} (hf : ∀ h, (bag h.stock).Nodup → Keeps c o h (f h)) (hb : (bag h.stock).Nodup) :
    Keeps c o h (turn i f h) := by
  have a : Keeps c o h { h with world := { h.world with err := h.err i } } := Keeps.world c o h fun y => Bal.err _ _ y
  have b := a.trans (hf _ hb)
  exact ⟨b.bal, b.sub⟩

theorem Keeps.foldl {α : Type} {f : Heap n N V → α → Heap n N V} (hf : ∀ h x, (bag h.stock).Nodup → Keeps c o h (f h x)) (l : List α)
    (hb : (bag h.stock).Nodup) : Keeps c o h (l.foldl f h) := by
  induction l generalizing h with
  | nil => exact .refl c o h
  | cons x l ih =>
    rw [List.foldl_cons]
    have a := hf h x hb
    exact a.trans (ih (a.nodup hb))

theorem decompose_keeps [DecidableEq N] (i : Fin n) (hb : (bag h.stock).Nodup) : Keeps c o h (decompose c o h i) := by
  refine ⟨decompose_bal h i hb, ?_⟩
  rw [decompose_stock, bag_split h.stock i]
  exact Multiset.le_add_left _ _

theorem retire_keeps [DecidableEq N] (h : Heap n N V) (i : Fin n) (hb : (bag h.stock).Nodup) : Keeps c o h (retire c o h i) := by
  unfold retire
  split_ifs
  · exact .turn (fun h hb => decompose_keeps i hb) hb
  · exact .refl c o h

theorem settle_keeps [DecidableEq N] (h : Heap n N V) (i : Fin n) (hb : (bag h.stock).Nodup) : Keeps c o h (settle c o h i) := by
  unfold settle
  split_ifs
  · refine .turn (fun h hb => ?_) hb
    obtain ⟨a, b⟩ := foldl_local (f := fun h m => freeProps c o m h) (fun h m => freeProps_local c o m h) hb (h.stock i) (fun m hm => mem_bag.2 ⟨i, hm⟩) h
    exact ⟨fun y => by rw [b]; exact a y, by rw [b]⟩
  · exact .refl c o h

theorem runs_keeps [DecidableEq N] {f : Fin n → N → Heap n N V → Heap n N V} (hf : ∀ i m h, Local c o m h (f i m h)) (hS : (bag h.stock).Nodup)
    (hr : Runs f h.stock (fresh h) h') : Keeps c o h h' := by
  obtain ⟨a, b⟩ := runs_bal hf hS hr fun i m hm => mem_bag.2 ⟨i, hm⟩
  have b : h'.stock = h.stock := b
  exact ⟨fun y => by rw [b]; exact a y, by rw [b]⟩

theorem composed_keeps [DecidableEq N] {e : Int} (hc : Composed c o addr h h' e) (hS : (bag h.stock).Nodup) : Keeps c o h h' := by
  rcases hc with ⟨rfl, -⟩ | ⟨late, hr, -⟩
  · exact .refl c o _
  · exact runs_keeps (composeIt_local c o addr) hS hr

theorem bypassed_keeps [DecidableEq N] {e : Int} (hc : Bypassed c o addr h h' e) (hS : (bag h.stock).Nodup) : Keeps c o h h' := by
  rcases hc with ⟨rfl, -⟩ | ⟨late, h₁, hr, rfl, -⟩
  · exact .refl c o _
  · have a := runs_keeps (bypassIt_local c o addr) hS hr
    exact a.trans (.foldl retire_keeps _ (a.nodup hS))

end Cru.ComposeAcc
