import Verif.Spec.SplitAcc
import Verif.Proofs.SpawnAcc

/-! # Accounting for splitting -/

namespace Cru.SplitAcc

open Net Fold
open MergeAcc (Bal)
open Request (Env alloc edge destroy_frame alloc_bal edge_bal edge_cases)
open SpawnAcc (Verdict heldLabels applied_bal applied_err)
open Split (Twin)

variable {n : Nat} {N V : Type} {c : Env}

/-! ## Sums -/

theorem sum_twins [Fintype N] [DecidableEq N] {α : Type} (f g : Twin N → Multiset α) (m : N) (h : ∀ t : Twin N, t.1 ≠ m → f t = g t) :
    ∃ r, ∑ t, f t = f (m, false) + f (m, true) + r ∧ ∑ t, g t = g (m, false) + g (m, true) + r := by
  have key : ∀ k : Twin N → Multiset α, ∑ t, k t = k (m, false) + k (m, true) + ∑ t ∈ (Finset.univ.erase (m, false)).erase (m, true), k t := by
    intro k
    rw [add_assoc, Finset.add_sum_erase _ k (by simp), Finset.add_sum_erase _ k (by simp)]
  refine ⟨_, key f, ?_⟩
  rw [key g]
  congr 1
  refine Finset.sum_congr rfl fun t ht => ?_
  refine (h t fun e => ?_).symm
  obtain ⟨a, b⟩ := t
  simp only at e
  subst e
  cases b <;> simp at ht

theorem sum_one [Fintype N] [DecidableEq N] {α : Type} (f g : Twin N → Multiset α) (q : Twin N) (h : ∀ t : Twin N, t ≠ q → f t = g t) :
    ∃ r, ∑ t, f t = f q + r ∧ ∑ t, g t = g q + r := by
  have key : ∀ k : Twin N → Multiset α, ∑ t, k t = k q + ∑ t ∈ Finset.univ.erase q, k t := fun k => (Finset.add_sum_erase _ k (by simp)).symm
  refine ⟨_, key f, ?_⟩
  rw [key g]
  congr 1
  exact Finset.sum_congr rfl fun t ht => (h t (Finset.ne_of_mem_erase ht)).symm

theorem sum_lane {α : Type} (f g : Fin n → Multiset α) (i : Fin n) (h : ∀ j, j ≠ i → f j = g j) :
    ∃ r, ∑ j, f j = f i + r ∧ ∑ j, g j = g i + r := by
  have key : ∀ k : Fin n → Multiset α, ∑ t, k t = k i + ∑ t ∈ Finset.univ.erase i, k t := fun k => (Finset.add_sum_erase _ k (by simp)).symm
  refine ⟨_, key f, ?_⟩
  rw [key g]
  congr 1
  exact Finset.sum_congr rfl fun t ht => (h t (Finset.ne_of_mem_erase ht)).symm

/-! ## Labels -/

@[simp] theorem labels_nil (c : Env) : labels c ([] : List (Edge N V)) = 0 := rfl

@[simp] theorem labels_cons (c : Env) (e : Edge N V) (es : List (Edge N V)) : labels c (e :: es) = owned c.eFree e.label + labels c es := by
  simp [labels, heldLabels]

@[simp] theorem labels_append (c : Env) (es fs : List (Edge N V)) : labels c (es ++ fs) = labels c es + labels c fs := by
  simp [labels, heldLabels]

@[simp] theorem ids_nil : ids ([] : List (Edge N V)) = 0 := rfl

@[simp] theorem ids_cons (e : Edge N V) (es : List (Edge N V)) : ids (e :: es) = e.id ::ₘ ids es := rfl

@[simp] theorem ids_append (es fs : List (Edge N V)) : ids (es ++ fs) = ids es + ids fs := by simp [ids]

theorem mem_ids {es : List (Edge N V)} {k : Nat} : k ∈ ids es ↔ ∃ e ∈ es, e.id = k := by simp [ids]

theorem passed_bal (f : Nat → Verdict) (w : World) (o : Multiset (Nat × Nat)) : Bal w (passed f w).2 o o := by
  unfold passed
  split_ifs
  · exact Bal.refl w o
  · exact Bal.tick w _ o

theorem relabel_bal (c : Env) (anaP : Nat → Verdict) (ana : Nat → Outcome V) (cataP : Nat → Verdict) (cata : Nat → Outcome V)
    (l : Option (Obj V)) (w : World) (o : Multiset (Nat × Nat)) :
    Bal w (relabel c anaP ana cataP cata l w).world (owned c.eFree l + o)
      (owned c.eFree (relabel c anaP ana cataP cata l w).anaLabel + owned c.eFree (relabel c anaP ana cataP cata l w).cataLabel + o) := by
  have key : ∀ (f : Nat → Verdict) (g : Nat → Outcome V) (w : World) (o : Multiset (Nat × Nat)),
      Bal w (if (passed f w).1 then applied g c.eFree (passed f w).2 else (none, (passed f w).2)).2 o
        (owned c.eFree (if (passed f w).1 then applied g c.eFree (passed f w).2 else (none, (passed f w).2)).1 + o) := by
    intro f g w o
    refine (passed_bal f w o).trans ?_
    split_ifs
    · exact applied_bal g _ _ o
    · exact (Bal.refl _ o).cast rfl (by simp [owned_none])
  have h1 := key anaP ana w (owned c.eFree l + o)
  unfold relabel
  dsimp only
  generalize (if (passed anaP w).1 then applied ana c.eFree (passed anaP w).2 else (none, (passed anaP w).2)) = x at h1 ⊢
  have h2 := h1.trans (key cataP cata x.2 _)
  generalize (if (passed cataP x.2).1 then applied cata c.eFree (passed cataP x.2).2 else (none, (passed cataP x.2).2)) = y at h2 ⊢
  refine h2.trans ((destroy_frame c c.eFree l y.2 (owned c.eFree x.1 + owned c.eFree y.1 + o)).cast ?_ rfl)
  abel

theorem relabel_ana (c : Env) (anaP : Nat → Verdict) (ana : Nat → Outcome V) (cataP : Nat → Verdict) (cata : Nat → Outcome V)
    (l : Option (Obj V)) (w : World) (h : (relabel c anaP ana cataP cata l w).ana = false) :
    (relabel c anaP ana cataP cata l w).anaLabel = none := by
  simp only [relabel] at h ⊢
  rw [if_neg (by simp [h])]

theorem relabel_cata (c : Env) (anaP : Nat → Verdict) (ana : Nat → Outcome V) (cataP : Nat → Verdict) (cata : Nat → Outcome V)
    (l : Option (Obj V)) (w : World) (h : (relabel c anaP ana cataP cata l w).cata = false) :
    (relabel c anaP ana cataP cata l w).cataLabel = none := by
  simp only [relabel] at h ⊢
  rw [if_neg (c := (passed cataP _).fst = true) (by simp [h])]

/-! ## The edges of a node -/

theorem fan_bal (c : Env) (o : Ops V) (es mv : List (Edge N V)) (k : Nat) (w : World) (x : Multiset (Nat × Nat)) :
    Bal w (fan c o es mv k w).world (labels c es + labels c mv + x)
      (labels c (fan c o es mv k w).kept + labels c (fan c o es mv k w).moved + x) := by
  induction es generalizing mv k w x with
  | nil => exact Bal.refl w _
  | cons e es ih =>
    unfold fan
    by_cases hw : w.err ≠ 0
    · rw [if_pos hw]; exact Bal.refl w _
    · rw [if_neg hw]
      dsimp only
      have h1 := relabel_bal c o.outAnaP o.outAna o.outCataP o.outCata e.label w (labels c es + labels c mv + x)
      have ha := relabel_ana c o.outAnaP o.outAna o.outCataP o.outCata e.label w
      have hc := relabel_cata c o.outAnaP o.outAna o.outCataP o.outCata e.label w
      generalize relabel c o.outAnaP o.outAna o.outCataP o.outCata e.label w = f at h1 ha hc ⊢
      have h2 : Bal w f.world (labels c (e :: es) + labels c mv + x)
          (owned c.eFree f.anaLabel + owned c.eFree f.cataLabel + (labels c es + labels c mv + x)) :=
        h1.cast (by simp; abel) rfl
      by_cases fa : f.ana = true
      · rw [if_pos fa]
        have hl : f.label = f.anaLabel := by simp [Fate.label, fa]
        by_cases fc : f.cata = true
        · rw [if_pos fc]
          have h3 := edge_bal c f.cataLabel none [] f.world (owned c.eFree f.anaLabel + (labels c es + labels c mv + x))
          have h4 := ih ((edge c f.cataLabel none [] f.world).1.map (fun x => ⟨k, x.label, e.dst⟩) ++ mv) (k + 1)
            (edge c f.cataLabel none [] f.world).2 (owned c.eFree f.anaLabel + x)
          refine h2.trans ((h3.cast ?_ rfl).trans (h4.cast ?_ ?_))
          · simp [owned_none]; abel
          · rw [labels_append]
            rcases edge_cases c f.cataLabel none [] f.world with h | h <;> rw [h] <;> simp [Request.Edge.held, owned_none] <;> abel
          · simp only [labels_cons, hl]; abel
        · rw [if_neg fc]
          refine h2.trans ((ih mv k f.world (owned c.eFree f.anaLabel + x)).cast ?_ ?_)
          · rw [hc (by simpa using fc), owned_none]; abel
          · simp only [labels_cons, hl]; abel
      · rw [if_neg fa]
        have hl : f.label = f.cataLabel := by simp [Fate.label, fa]
        have h3 := ha (by simpa using fa)
        by_cases fc : f.cata = true
        · rw [if_pos fc]
          refine h2.trans ((ih _ k f.world x).cast ?_ rfl)
          rw [h3, owned_none]
          simp only [labels_cons, hl]; abel
        · rw [if_neg fc]
          refine h2.trans (((destroy_frame c c.eFree f.label f.world (labels c es + labels c mv + x)).cast ?_ rfl).trans (ih mv k _ x))
          rw [h3, hl, owned_none]; abel

/-- The addresses of the edges afterwards. -/
theorem fan_ids (c : Env) (o : Ops V) (es mv : List (Edge N V)) (k : Nat) (w : World) :
    ∃ F : Multiset Nat, F.Nodup ∧ k ≤ (fan c o es mv k w).next ∧ (∀ x ∈ F, k ≤ x ∧ x < (fan c o es mv k w).next) ∧
      ids (fan c o es mv k w).kept + ids (fan c o es mv k w).moved ≤ ids es + ids mv + F := by
  induction es generalizing mv k w with
  | nil => exact ⟨0, by simp, le_rfl, by simp, by simp [fan]⟩
  | cons e es ih =>
    unfold fan
    by_cases hw : w.err ≠ 0
    · rw [if_pos hw]; exact ⟨0, by simp, le_rfl, by simp, by simp⟩
    · rw [if_neg hw]
      dsimp only
      generalize relabel c o.outAnaP o.outAna o.outCataP o.outCata e.label w = f
      split_ifs
      · obtain ⟨F, h1, h2, h3, h4⟩ := ih ((edge c f.cataLabel none [] f.world).1.map (fun x => ⟨k, x.label, e.dst⟩) ++ mv) (k + 1)
          (edge c f.cataLabel none [] f.world).2
        dsimp only
        refine ⟨k ::ₘ F, ?_, by omega, ?_, ?_⟩
        · rw [Multiset.nodup_cons]
          exact ⟨fun h => absurd (h3 k h).1 (by omega), h1⟩
        · intro x hx
          rcases Multiset.mem_cons.1 hx with rfl | hx
          · exact ⟨le_rfl, by omega⟩
          · have := h3 x hx; omega
        · rw [ids_cons, ids_cons, ids_append] at *
          have h5 : ids ((edge c f.cataLabel none [] f.world).1.map (fun x => (⟨k, x.label, e.dst⟩ : Edge N V))) ≤ {k} := by
            rcases edge_cases c f.cataLabel none [] f.world with h | h <;> rw [h] <;> simp [ids]
          rw [← Multiset.singleton_add, ← Multiset.singleton_add, ← Multiset.singleton_add, add_assoc]
          calc _ ≤ {e.id} + (ids es + ({k} + ids mv) + F) := by
                refine add_le_add_right (h4.trans ?_) _
                gcongr
            _ = _ := by abel
      · obtain ⟨F, h1, h2, h3, h4⟩ := ih mv k f.world
        refine ⟨F, h1, h2, h3, ?_⟩
        simp only [ids_cons, Multiset.cons_add]
        exact (Multiset.cons_le_cons_iff _).2 h4
      · obtain ⟨F, h1, h2, h3, h4⟩ := ih ({ e with label := f.label } :: mv) k f.world
        refine ⟨F, h1, h2, h3, h4.trans (le_of_eq ?_)⟩
        simp
      · obtain ⟨F, h1, h2, h3, h4⟩ := ih mv k (destroy c.fails c.eFree f.label f.world)
        refine ⟨F, h1, h2, h3, h4.trans ?_⟩
        simp only [ids_cons, Multiset.cons_add]
        exact Multiset.le_cons_self _ _

theorem fan_dst (c : Env) (o : Ops V) (es mv : List (Edge N V)) (k : Nat) (w : World) (P : Twin N → Prop) (h : ∀ e ∈ es, P e.dst) (h' : ∀ e ∈ mv, P e.dst) :
    (∀ e ∈ (fan c o es mv k w).kept, P e.dst) ∧ ∀ e ∈ (fan c o es mv k w).moved, P e.dst := by
  induction es generalizing mv k w with
  | nil => exact ⟨by simp [fan], h'⟩
  | cons e es ih =>
    rw [List.forall_mem_cons] at h
    unfold fan
    by_cases hw : w.err ≠ 0
    · rw [if_pos hw]; exact ⟨List.forall_mem_cons.2 h, h'⟩
    · rw [if_neg hw]
      dsimp only
      generalize relabel c o.outAnaP o.outAna o.outCataP o.outCata e.label w = f
      split_ifs
      · have := ih ((edge c f.cataLabel none [] f.world).1.map (fun x => ⟨k, x.label, e.dst⟩) ++ mv) (k + 1)
          (edge c f.cataLabel none [] f.world).2 h.2 (by
            intro e' he
            rcases List.mem_append.1 he with he | he
            · obtain ⟨y, -, rfl⟩ := List.mem_map.1 he
              exact h.1
            · exact h' _ he)
        exact ⟨List.forall_mem_cons.2 ⟨h.1, this.1⟩, this.2⟩
      · have := ih mv k f.world h.2 h'
        exact ⟨List.forall_mem_cons.2 ⟨h.1, this.1⟩, this.2⟩
      · exact ih _ k f.world h.2 (List.forall_mem_cons.2 ⟨h.1, h'⟩)
      · exact ih mv k _ h.2 h'

/-! ## Notices -/

theorem scatter_bal (c : Env) (res : Nat → Bool) (s : Twin N) (es : List (Edge N V)) (w : World) (x : Multiset (Nat × Nat)) :
    Bal w (scatter c res s es w).2 x x := by
  induction es generalizing w with
  | nil => exact Bal.refl w x
  | cons e es ih =>
    unfold scatter
    split_ifs
    · exact alloc_bal c w x
    · exact (alloc_bal c w x).trans (ih _)

/-- The edges carrying packets. -/
def Pkt.carrier : Pkt N V → Option (Twin N × Nat)
  | .visit _ d => d
  | .disconnect s k => some (s, k)
  | _ => none

/-- The node a packet brings. -/
def Pkt.fresh : Pkt N V → Option (Twin N)
  | .create m => some (m, true)
  | _ => none

/-- The edge a packet brings. -/
def Pkt.edge : Pkt N V → Option Nat
  | .connect _ e => some e.id
  | _ => none

theorem scatter_pkts (c : Env) (res : Nat → Bool) (s : Twin N) (es : List (Edge N V)) (w : World) :
    (∀ p ∈ (scatter c res s es w).1, p.fresh = none ∧ p.edge = none ∧ p.held c = 0) ∧
    ∃ ks : List Nat, ks.Sublist (es.map Edge.id) ∧ (scatter c res s es w).1.filterMap Pkt.carrier = ks.map fun k => (s, k) := by
  induction es generalizing w with
  | nil => exact ⟨by simp [scatter], [], by simp, rfl⟩
  | cons e es ih =>
    unfold scatter
    split_ifs
    · exact ⟨by simp, [], by simp, rfl⟩
    · obtain ⟨h1, ks, h2, h3⟩ := ih (alloc c w)
      refine ⟨List.forall_mem_cons.2 ⟨⟨rfl, rfl, rfl⟩, h1⟩, e.id :: ks, ?_, ?_⟩
      · simpa using h2
      · simp [Pkt.carrier, h3]

theorem notify_spec (c : Env) (res : Nat → Bool) (s : Twin N) (h : Heap n N V) (hd : ∀ e ∈ h.out s, e.dst.2 = false) :
    ∃ w, (notify c res s h).1 = { h with world := w } ∧ (∀ x, Bal h.world w x x) ∧
      (∀ p ∈ (notify c res s h).2, p.fresh = none ∧ p.edge = none ∧ p.held c = 0) ∧
      ∃ ks : List Nat, ks.Sublist ((h.out s).map Edge.id) ∧ (notify c res s h).2.filterMap Pkt.carrier = ks.map fun k => (s, k) := by
  unfold notify
  split_ifs
  · exact ⟨h.world, rfl, fun x => Bal.refl _ x, by simp, [], by simp, rfl⟩
  · have ha : ((h.out s).any fun e => e.dst.2) = false := by
      rw [List.any_eq_false]; intro e he; simp [hd e he]
    have := scatter_pkts c res s (h.out s) h.world
    dsimp only
    rw [ha, Bool.or_false]
    exact ⟨_, rfl, fun x => scatter_bal c res s _ _ x, this.1, this.2⟩

/-! ## A node and its doppleganger -/

/-- What's held by a node, its doppleganger, and the dummy nodes. -/
def near (c : Env) (pf : Option Nat) (h : Heap n N V) (m : N) : Multiset (Nat × Nat) :=
  held c h (m, false) + owned pf (h.prop (m, false)) + (held c h (m, true) + owned pf (h.prop (m, true))) + ∑ i, heldOld c (h.old i)

/-- There's no doppleganger. -/
def Blank (h : Heap n N V) (m : N) : Prop := h.vertex (m, true) = none ∧ h.prop (m, true) = none ∧ h.out (m, true) = []

/-- What `fan_out` does to a node. -/
structure Out (c : Env) (pf : Option Nat) (m : N) (h h' : Heap n N V) (ps : List (Pkt N V)) : Prop where
  rest : ∀ t : Twin N, t.1 ≠ m → h'.vertex t = h.vertex t ∧ h'.prop t = h.prop t ∧ h'.out t = h.out t
  stock : h'.stock = h.stock
  bad : h'.bad = h.bad
  addr : ∃ F : Multiset Nat, F.Nodup ∧ h.next ≤ h'.next ∧ (∀ x ∈ F, h.next ≤ x ∧ x < h'.next) ∧
    ids (h'.out (m, false)) + ids (h'.out (m, true)) ≤ ids (h.out (m, false)) + ids (h.out (m, true)) + F
  carriers : ∃ ks ls : List Nat, ks.Sublist ((h'.out (m, true)).map Edge.id) ∧ ls.Sublist ((h'.out (m, false)).map Edge.id) ∧
    ps.filterMap Pkt.carrier = (ks.map fun k => ((m, true), k)) ++ ls.map fun k => ((m, false), k)
  edges : ∀ p ∈ ps, p.edge = none ∧ p.held c = 0
  bal : ∀ x, Bal h.world h'.world (near c pf h m + x) (near c pf h' m + x)

theorem filterMap_none {α β : Type} (f : α → Option β) (l : List α) (h : ∀ a ∈ l, f a = none) : l.filterMap f = [] := by
  rw [List.filterMap_eq_nil_iff]; exact h

theorem Out.still {pf : Option Nat} (m : N) (h : Heap n N V) (w : World) (hb : ∀ x, Bal h.world w x x) :
    Out c pf m h { h with world := w } [] :=
  ⟨fun t _ => ⟨rfl, rfl, rfl⟩, rfl, rfl, ⟨0, by simp, le_rfl, by simp, by simp⟩, ⟨[], [], by simp, by simp, rfl⟩, by simp, fun x => hb _⟩

theorem divide_spec [DecidableEq N] (c : Env) (o : Ops V) (res : Nat → Bool) (i : Fin n) (h : Heap n N V) (m : N)
    (ho : h.out (m, true) = []) (hd : ∀ e ∈ h.out (m, false), e.dst.2 = false) (hana : ∀ t, (o.ana t).ux ≠ 0 → (o.ana t).val = none) :
    Out c o.pFree m h (divide c o res i h m).1 (divide c o res i h m).2 ∧ ∀ p ∈ (divide c o res i h m).2, p.fresh = none := by
  have hw : ∀ w : World, w = (if c.vFree.isSome ∧ h.world.err = 0 then alloc c h.world else h.world) → ∀ x, Bal h.world w x x := by
    rintro w rfl x
    split_ifs
    · exact alloc_bal c _ x
    · exact Bal.refl _ x
  unfold divide
  dsimp only
  have hw' := hw _ rfl
  generalize (if c.vFree.isSome ∧ h.world.err = 0 then alloc c h.world else h.world) = w at hw' ⊢
  have h1 := fun x => (hw' x).trans (applied_bal o.ana c.vFree w x)
  have h0 := applied_err o.ana c.vFree w hana
  generalize applied o.ana c.vFree w = u at h0 h1 ⊢
  by_cases e1 : u.2.err ≠ 0
  · rw [if_pos e1]
    refine ⟨Out.still m h u.2 fun x => (h1 x).cast rfl ?_, by simp⟩
    rw [h0 e1, owned_none, zero_add]
  · rw [if_neg e1]
    obtain ⟨F, f1, f2, f3, f4⟩ := fan_ids c o (h.out (m, false)) (h.out (m, true)) h.next u.2
    have f5 := fan_bal c o (h.out (m, false)) (h.out (m, true)) h.next u.2
    obtain ⟨f6, f7⟩ := fan_dst c o (h.out (m, false)) (h.out (m, true)) h.next u.2 (fun t => t.2 = false) hd (by simp [ho])
    generalize fan c o (h.out (m, false)) (h.out (m, true)) h.next u.2 = f at f2 f3 f4 f5 f6 f7 ⊢
    obtain ⟨old', hold⟩ : ∃ old', old' = (if c.vFree.isSome then Function.update h.old i (h.vertex (m, false) :: h.old i) else h.old) := ⟨_, rfl⟩
    have hsum : ∑ j, heldOld c (old' j) = owned c.vFree (h.vertex (m, false)) + ∑ j, heldOld c (h.old j) := by
      rw [hold]
      cases hv : c.vFree with
      | none => simp [owned]
      | some d =>
        obtain ⟨r, r1, r2⟩ := sum_lane (fun j => heldOld c (h.old j)) (fun j => heldOld c (Function.update h.old i (h.vertex (m, false) :: h.old i) j)) i
          (fun j hj => by rw [Function.update_of_ne hj])
        simp only [Option.isSome_some, if_true]
        rw [r1, r2, Function.update_self]
        simp only [heldOld, List.map_cons, List.sum_cons, hv]; abel
    rw [← hold]
    have hne : ((m, false) : Twin N) ≠ (m, true) := by simp
    have k1 : ∀ x, Bal h.world f.world (near c o.pFree h m + x)
        (near c o.pFree { h with
          vertex := Function.update h.vertex (m, false) u.1
          out := Function.update (Function.update h.out (m, false) f.kept) (m, true) f.moved
          split := Function.update h.split m true
          old := old'
          next := f.next
          world := f.world } m + x) := by
      intro x
      refine (h1 (near c o.pFree h m + x)).trans ((f5 (owned c.vFree u.1 + (owned c.vFree (h.vertex (m, false)) + owned o.pFree (h.prop (m, false)) +
        (owned c.vFree (h.vertex (m, true)) + owned o.pFree (h.prop (m, true))) + ∑ j, heldOld c (h.old j) + x))).cast ?_ ?_)
      · simp only [near, held]; abel
      · simp only [near, held, hsum, Function.update_self, Function.update_of_ne hne, Function.update_of_ne hne.symm]; abel
    generalize hH : ({ h with
          vertex := Function.update h.vertex (m, false) u.1
          out := Function.update (Function.update h.out (m, false) f.kept) (m, true) f.moved
          split := Function.update h.split m true
          old := old'
          next := f.next
          world := f.world } : Heap n N V) = H at k1 ⊢
    have g1 : H.out (m, true) = f.moved := by rw [← hH]; simp
    have g2 : H.out (m, false) = f.kept := by rw [← hH]; simp
    have g3 : ∀ t : Twin N, t.1 ≠ m → H.vertex t = h.vertex t ∧ H.prop t = h.prop t ∧ H.out t = h.out t := by
      intro t ht
      have : t ≠ (m, true) ∧ t ≠ (m, false) := ⟨fun e => ht (by rw [e]), fun e => ht (by rw [e])⟩
      rw [← hH]; simp [this]
    have g4 : H.stock = h.stock ∧ H.bad = h.bad ∧ H.next = f.next ∧ H.world = f.world := by rw [← hH]; exact ⟨rfl, rfl, rfl, rfl⟩
    obtain ⟨w1, a1, a2, a3, ks, a4, a5⟩ := notify_spec c res (m, true) H (by rw [g1]; exact f7)
    obtain ⟨w2, b1, b2, b3, ls, b4, b5⟩ := notify_spec c res (m, false) (notify c res (m, true) H).1 (by rw [a1]; simp only [g2]; exact f6)
    refine ⟨⟨?_, ?_, ?_, ⟨F, f1, ?_, ?_, ?_⟩, ⟨ks, ls, ?_, ?_, ?_⟩, ?_, ?_⟩, ?_⟩
    · rw [b1, a1]; exact g3
    · rw [b1, a1]; exact g4.1
    · rw [b1, a1]; exact g4.2.1
    · rw [b1, a1]; dsimp only; rw [g4.2.2.1]; exact f2
    · rw [b1, a1]; dsimp only; rw [g4.2.2.1]; exact f3
    · rw [b1, a1]; dsimp only; rw [g1, g2]; exact f4
    · rw [b1, a1]; exact a4
    · rw [b1]; exact b4
    · rw [List.filterMap_append, a5, b5]
    · intro p hp
      rcases List.mem_append.1 hp with hp | hp
      · exact (a3 p hp).2
      · exact (b3 p hp).2
    · intro x
      rw [b1, a1]
      have := (k1 x).trans (g4.2.2.2 ▸ a2 _)
      rw [a1] at b2
      exact this.trans (b2 _)
    · intro p hp
      rcases List.mem_append.1 hp with hp | hp
      · exact (a3 p hp).1
      · exact (b3 p hp).1

theorem fanOut_spec [DecidableEq N] (c : Env) (o : Ops V) (res : Nat → Bool) (i : Fin n) (h : Heap n N V) (m : N)
    (hb : Blank h m) (hd : ∀ e ∈ h.out (m, false), e.dst.2 = false) (hcata : ∀ t, (o.cata t).ux ≠ 0 → (o.cata t).val = none)
    (hana : ∀ t, (o.ana t).ux ≠ 0 → (o.ana t).val = none) :
    Out c o.pFree m h (fanOut c o res i h m).1 (fanOut c o res i h m).2 ∧
      ((fanOut c o res i h m).2.filterMap Pkt.fresh = [] ∧ Blank (fanOut c o res i h m).1 m ∨
        (fanOut c o res i h m).2.filterMap Pkt.fresh = [(m, true)]) := by
  unfold fanOut
  dsimp only
  have h1 := passed_bal o.fissile h.world
  generalize passed o.fissile h.world = f at h1 ⊢
  by_cases e1 : f.1 = false
  · rw [if_pos e1]
    obtain ⟨w, a1, a2, a3, ks, a4, a5⟩ := notify_spec c res (m, false) { h with world := f.2 } hd
    refine ⟨⟨?_, ?_, ?_, ⟨0, by simp, ?_, by simp, ?_⟩, ⟨[], ks, by simp, ?_, ?_⟩, fun p hp => (a3 p hp).2, fun x => ?_⟩, .inl ⟨?_, ?_⟩⟩
    · rw [a1]; exact fun t _ => ⟨rfl, rfl, rfl⟩
    · rw [a1]
    · rw [a1]
    · rw [a1]
    · rw [a1]; simp
    · rw [a1]; exact a4
    · rw [a5]; rfl
    · rw [a1]; exact (h1 _).trans (a2 _)
    · exact filterMap_none _ _ fun p hp => (a3 p hp).1
    · rw [a1]; exact hb
  · rw [if_neg e1]
    have h2 := fun x => (h1 x).trans (applied_bal o.cata c.vFree f.2 x)
    have h0 := applied_err o.cata c.vFree f.2 hcata
    generalize applied o.cata c.vFree f.2 = t at h0 h2 ⊢
    by_cases e2 : t.2.err ≠ 0
    · rw [if_pos e2]
      refine ⟨Out.still m h t.2 fun x => (h2 x).cast rfl (by rw [h0 e2, owned_none, zero_add]), .inl ⟨rfl, hb⟩⟩
    · rw [if_neg e2]
      have h3 := fun x => (h2 x).trans (alloc_bal c t.2 _)
      by_cases e3 : (alloc c t.2).err ≠ 0
      · rw [if_pos e3]
        exact ⟨Out.still m h _ fun x => (h3 x).trans (destroy_frame c c.vFree t.1 _ x), .inl ⟨rfl, hb⟩⟩
      · rw [if_neg e3]
        have h4 := fun x => (h3 x).trans (applied_bal o.probe o.pFree (alloc c t.2) _)
        generalize applied o.probe o.pFree (alloc c t.2) = p at h4 ⊢
        by_cases e4 : p.2.err ≠ 0
        · rw [if_pos e4]
          exact ⟨Out.still m h _ fun x => (h4 x).trans ((destroy_frame c o.pFree p.1 _ _).trans (destroy_frame c c.vFree t.1 _ x)), .inl ⟨rfl, hb⟩⟩
        · rw [if_neg e4]
          have h5 := fun x => (h4 x).trans (alloc_bal c p.2 _)
          by_cases e5 : unsent c res p.2
          · rw [if_pos e5]
            exact ⟨Out.still m h _ fun x => (h5 x).trans ((destroy_frame c o.pFree p.1 _ _).trans (destroy_frame c c.vFree t.1 _ x)), .inl ⟨rfl, hb⟩⟩
          · rw [if_neg e5]
            have hne : ((m, false) : Twin N) ≠ (m, true) := by simp
            generalize hH : ({ h with
              vertex := Function.update h.vertex (m, true) t.1
              prop := Function.update h.prop (m, true) p.1
              world := alloc c p.2 } : Heap n N V) = H
            have g1 : H.out = h.out ∧ H.stock = h.stock ∧ H.bad = h.bad ∧ H.next = h.next ∧ H.world = alloc c p.2 := by
              rw [← hH]; exact ⟨rfl, rfl, rfl, rfl, rfl⟩
            have g2 : ∀ t : Twin N, t.1 ≠ m → H.vertex t = h.vertex t ∧ H.prop t = h.prop t ∧ H.out t = h.out t := by
              intro t ht
              have : t ≠ (m, true) := fun e => ht (by rw [e])
              rw [← hH]; simp [this]
            have g3 : near c o.pFree H m = owned o.pFree p.1 + (owned c.vFree t.1 + near c o.pFree h m) := by
              rw [← hH]
              simp only [near, held, Function.update_self, Function.update_of_ne hne, hb.1, hb.2.1, owned_none]
              abel
            obtain ⟨D, hD⟩ := divide_spec c o res i H m (by rw [g1.1]; exact hb.2.2) (by rw [g1.1]; exact hd) hana
            refine ⟨⟨fun t ht => ?_, D.stock.trans g1.2.1, D.bad.trans g1.2.2.1, ?_, D.carriers, List.forall_mem_cons.2 ⟨⟨rfl, rfl⟩, D.edges⟩, fun x => ?_⟩, .inr ?_⟩
            · have := D.rest t ht
              have := g2 t ht
              simp_all
            · have := D.addr
              rw [g1.1, g1.2.2.2.1] at this
              exact this
            · refine (h5 (near c o.pFree h m + x)).trans ?_
              rw [← g1.2.2.2.2]
              refine (D.bal x).cast ?_ rfl
              rw [g3]; abel
            · have := filterMap_none Pkt.fresh _ hD
              simp [Pkt.fresh, this]

/-! ## An edge to a divided node -/

theorem alter_ids (es : List (Edge N V)) (k : Nat) (l : Option (Obj V)) (d : Twin N) : ids (alter es k l d) = ids es := by
  unfold ids alter
  rw [List.map_map]
  congr 1
  refine List.map_congr_left fun e _ => ?_
  simp only [Function.comp]
  split_ifs <;> rfl

theorem alter_other (es : List (Edge N V)) (k : Nat) (l : Option (Obj V)) (d : Twin N) (h : k ∉ ids es) : alter es k l d = es := by
  unfold alter
  conv_rhs => rw [← List.map_id es]
  refine List.map_congr_left fun e he => ?_
  rw [if_neg fun h' => h (mem_ids.2 ⟨e, he, h'⟩)]
  rfl

theorem alter_labels (es : List (Edge N V)) (e : Edge N V) (he : e ∈ es) (hn : (ids es).Nodup) (l : Option (Obj V)) (d : Twin N) :
    labels c (alter es e.id l d) + owned c.eFree e.label = labels c es + owned c.eFree l := by
  induction es with
  | nil => simp at he
  | cons a es ih =>
    rw [ids_cons, Multiset.nodup_cons] at hn
    by_cases ha : a = e
    · subst ha
      have : alter (a :: es) a.id l d = { a with label := l, dst := d } :: alter es a.id l d := by simp [alter]
      rw [this, alter_other es _ l d hn.1]
      simp only [labels_cons]; abel
    · have he' : e ∈ es := by simpa [Ne.symm ha] using he
      have hne : a.id ≠ e.id := fun h => hn.1 (mem_ids.2 ⟨e, he', h.symm⟩)
      have : alter (a :: es) e.id l d = a :: alter es e.id l d := by simp [alter, hne]
      rw [this, labels_cons, labels_cons, add_assoc, ih he' hn.2, add_assoc]

theorem delete_ids (es : List (Edge N V)) (k : Nat) : ids (es.filter fun e => e.id != k) = (ids es).filter (· ≠ k) := by
  unfold ids
  rw [Multiset.filter_coe, List.filter_map]
  congr 2
  refine List.filter_congr fun e _ => ?_
  simp [Function.comp, bne]
  rfl

theorem delete_other (es : List (Edge N V)) (k : Nat) (h : k ∉ ids es) : (es.filter fun e => e.id != k) = es := by
  rw [List.filter_eq_self]
  intro e he
  simpa using fun h' => h (mem_ids.2 ⟨e, he, h'⟩)

theorem delete_labels (es : List (Edge N V)) (e : Edge N V) (he : e ∈ es) (hn : (ids es).Nodup) :
    labels c es = owned c.eFree e.label + labels c (es.filter fun a => a.id != e.id) := by
  induction es with
  | nil => simp at he
  | cons a es ih =>
    rw [ids_cons, Multiset.nodup_cons] at hn
    by_cases ha : a = e
    · subst ha
      rw [List.filter_cons_of_neg (by simp), delete_other es _ hn.1, labels_cons]
    · have he' : e ∈ es := by simpa [Ne.symm ha] using he
      have hne : a.id ≠ e.id := fun h => hn.1 (mem_ids.2 ⟨e, he', h.symm⟩)
      rw [List.filter_cons_of_pos (by simpa using hne), labels_cons, labels_cons, ih he' hn.2]
      abel

/-- What `fan_in` does to the node `s` that has sent a packet with the edge `k`. -/
structure In (c : Env) (s : Twin N) (k : Nat) (h h' : Heap n N V) (ps : List (Pkt N V)) : Prop where
  same : h'.vertex = h.vertex ∧ h'.prop = h.prop ∧ h'.stock = h.stock ∧ h'.bad = h.bad ∧ h'.old = h.old
  rest : ∀ t, t ≠ s → h'.out t = h.out t
  ids : ids (h'.out s) = ids (h.out s)
  pkts : ps = [] ∧ h'.next = h.next ∨ (∃ e, ps = [.connect s e] ∧ e.id = h.next ∧ h'.next = h.next + 1) ∨ ps = [.disconnect s k] ∧ h'.next = h.next
  bal : ∀ x, Bal h.world h'.world (labels c (h.out s) + x) (labels c (h'.out s) + (ps.map (Pkt.held c)).sum + x)

theorem connectIn_spec [DecidableEq N] (c : Env) (o : Ops V) (res : Nat → Bool) (h : Heap n N V) (m : N) (s : Twin N) (e : Edge N V)
    (he : e ∈ h.out s) (hn : (ids (h.out s)).Nodup) :
    In c s e.id h (connectIn c o res h m s e).1 (connectIn c o res h m s e).2 := by
  unfold connectIn
  dsimp only
  have h1 := relabel_bal c o.inAnaP o.inAna o.inCataP o.inCata e.label h.world
  have ha := relabel_ana c o.inAnaP o.inAna o.inCataP o.inCata e.label h.world
  have hc := relabel_cata c o.inAnaP o.inAna o.inCataP o.inCata e.label h.world
  generalize relabel c o.inAnaP o.inAna o.inCataP o.inCata e.label h.world = f at h1 ha hc ⊢
  generalize (if f.ana = false ∧ f.cata = true then (m, true) else e.dst) = d
  have hl := alter_labels (c := c) (h.out s) e he hn f.label d
  have hi := alter_ids (h.out s) e.id f.label d
  generalize alter (h.out s) e.id f.label d = es at hl hi ⊢
  /- With the other label in hand. -/
  have h2 : ∀ y x, owned c.eFree f.anaLabel + owned c.eFree f.cataLabel = owned c.eFree f.label + y →
      Bal h.world f.world (labels c (h.out s) + x) (labels c es + y + x) := by
    intro y x hy
    refine ⟨?_, (h1 0).wf⟩
    have := (h1 (labels c es + x)).ledger
    rw [hy] at this
    have e1 : owned c.eFree e.label + (labels c es + x) = (labels c (h.out s) + x) + owned c.eFree f.label := by
      rw [← add_assoc, add_comm (owned c.eFree e.label), hl]; abel
    have e2 : owned c.eFree f.label + y + (labels c es + x) = (labels c es + y + x) + owned c.eFree f.label := by abel
    rw [e1, e2] at this
    refine add_right_cancel (b := owned c.eFree f.label) ?_
    rw [add_assoc _ (labels c (h.out s) + x), this, add_assoc _ (labels c es + y + x)]
  have rest : ∀ (w : World) (k : Nat) (t : Twin N), t ≠ s →
      ({ h with out := Function.update h.out s es, world := w, next := k } : Heap n N V).out t = h.out t :=
    fun w k t ht => Function.update_of_ne ht _ _
  have out : ∀ (w : World) (k : Nat), ({ h with out := Function.update h.out s es, world := w, next := k } : Heap n N V).out s = es :=
    fun w k => Function.update_self _ _ _
  have mk : ∀ (w : World), (∀ x, Bal h.world w (labels c (h.out s) + x) (labels c es + x)) →
      In c s e.id h { h with out := Function.update h.out s es, world := w } [] := by
    intro w hw
    refine ⟨⟨rfl, rfl, rfl, rfl, rfl⟩, rest w h.next, ?_, .inl ⟨rfl, rfl⟩, fun x => ?_⟩
    · exact (congrArg _ (out w h.next)).trans hi
    · exact (hw x).cast rfl (by rw [← out w h.next]; simp)
  by_cases fa : f.ana = true
  · rw [if_pos fa]
    have hl' : f.label = f.anaLabel := by simp [Fate.label, fa]
    by_cases fc : f.cata = true
    · rw [if_pos fc]
      have h3 := fun x => (h2 (owned c.eFree f.cataLabel) x (by rw [hl'])).trans
        ((edge_bal c f.cataLabel none [] f.world (labels c es + x)).cast (by simp [owned_none]; abel) rfl)
      have h4 := edge_cases c f.cataLabel none [] f.world
      generalize edge c f.cataLabel none [] f.world = g at h3 h4 ⊢
      obtain ⟨gs, w⟩ := g
      simp only at h4
      rcases h4 with rfl | rfl
      · exact mk w fun x => (h3 x).cast rfl (by simp)
      · dsimp only
        have h5 := fun x => (h3 x).trans (alloc_bal c w _)
        split_ifs
        · refine mk _ fun x => (h5 x).trans ((destroy_frame c c.eFree f.cataLabel _ (labels c es + x)).cast ?_ rfl)
          simp [Request.Edge.held, owned_none]
        · refine ⟨⟨rfl, rfl, rfl, rfl, rfl⟩, rest _ _, (congrArg _ (out (alloc c w) _)).trans hi, .inr (.inl ⟨_, rfl, rfl, rfl⟩), fun x => ?_⟩
          refine (h5 x).cast rfl ?_
          rw [out (alloc c w) (h.next + 1)]
          simp [Request.Edge.held, Pkt.held, owned_none]
          abel
    · rw [if_neg fc]
      refine mk _ fun x => (h2 0 x ?_).cast rfl (by simp)
      rw [hc (by simpa using fc), hl', owned_none]
  · rw [if_neg fa]
    have hl' : f.label = f.cataLabel := by simp [Fate.label, fa]
    have h3 := fun x => (h2 0 x (by rw [ha (by simpa using fa), hl', owned_none]; simp)).cast rfl (by simp : _ = labels c es + x)
    split_ifs
    · exact mk _ h3
    · exact mk _ fun x => (h3 x).trans (alloc_bal c _ _)
    · refine ⟨⟨rfl, rfl, rfl, rfl, rfl⟩, rest _ h.next, (congrArg _ (out (alloc c f.world) h.next)).trans hi, .inr (.inr ⟨rfl, rfl⟩), fun x => ?_⟩
      refine ((h3 x).trans (alloc_bal c _ _)).cast rfl ?_
      show _ = labels c (Function.update h.out s es s) + _ + x
      rw [Function.update_self]
      simp [Pkt.held]

/-- What `fan_in` does: nothing, or this. -/
theorem fanIn_spec [DecidableEq N] (c : Env) (o : Ops V) (res : Nat → Bool) (h : Heap n N V) (m : N) (d : Option (Twin N × Nat))
    (hd : ∀ s k, d = some (s, k) → k ∈ ids (h.out s) ∧ (ids (h.out s)).Nodup) :
    fanIn c o res h m d = (h, []) ∨ ∃ s k, d = some (s, k) ∧ In c s k h (fanIn c o res h m d).1 (fanIn c o res h m d).2 := by
  unfold fanIn
  rcases d with _ | ⟨s, k⟩
  · exact .inl rfl
  · dsimp only
    split_ifs
    · exact .inl rfl
    · obtain ⟨h1, h2⟩ := hd s k rfl
      obtain ⟨e, he, hk⟩ := mem_ids.1 h1
      cases hf : (h.out s).find? fun e => e.id == k with
      | none => exact absurd (List.find?_eq_none.1 hf e he) (by simp [hk])
      | some e' =>
        refine .inr ⟨s, k, rfl, ?_⟩
        have h3 : e'.id = k := by simpa using List.find?_some hf
        have := connectIn_spec c o res h m s e' (List.mem_of_find?_eq_some hf) h2
        rw [h3] at this
        exact this

end Cru.SplitAcc
