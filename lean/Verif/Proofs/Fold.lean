import Verif.Spec.Fold
import Mathlib.Algebra.Order.Group.Multiset
import Mathlib.Tactic.Abel

/-! # Accounting for the storage created by folds -/

namespace Cru.Fold

variable {A U V : Type}

/-- A sane history: objects were made at different times in the past. -/
structure World.WF (w : World) : Prop where
  past : ∀ x ∈ w.made, x.1 < w.clock
  nodup : (w.made.map Prod.fst).Nodup

/-- From `w` to `w'` everything made was freed except what `o` says. -/
structure Account (w w' : World) (o : Multiset (Nat × Nat)) : Prop where
  ledger : w'.made + w.freed = w.made + w'.freed + o
  wf : w.WF → w'.WF
  err : w.err ≠ 0 → w'.err = w.err

theorem Account.refl (w : World) : Account w w 0 := ⟨by simp, id, fun _ => rfl⟩

theorem Account.trans {w w' w'' : World} {o o' : Multiset (Nat × Nat)} (h : Account w w' o) (h' : Account w' w'' o') :
    Account w w'' (o + o') := by
  refine ⟨?_, h'.wf ∘ h.wf, fun he => (h'.err (by rw [h.err he]; exact he)).trans (h.err he)⟩
  have h1 := h.ledger
  have h2 := h'.ledger
  have : w'.freed + (w''.made + w.freed) = w'.freed + (w.made + w''.freed + (o + o')) := by
    calc w'.freed + (w''.made + w.freed) = (w''.made + w'.freed) + w.freed := by abel
      _ = (w'.made + w.freed) + w''.freed + o' := by rw [h2]; abel
      _ = w'.freed + (w.made + w''.freed + (o + o')) := by rw [h1]; abel
  exact add_left_cancel this

theorem raise_account {w w' : World} {o : Multiset (Nat × Nat)} (h : Account w w' o) (e : Int) :
    Account w (w'.raise e) o := by
  refine ⟨h.ledger, fun hw => ⟨(h.wf hw).past, (h.wf hw).nodup⟩, ?_⟩
  intro he
  have := h.err he
  simp only [World.raise]
  rw [this]; simp [he]

theorem applied_account (f : Nat → Outcome V) (d : Option Nat) (w : World) :
    Account w (applied f d w).2 (owned d (applied f d w).1) := by
  unfold applied
  by_cases he : w.err ≠ 0
  · simp only [he, if_true, ne_eq, not_false_eq_true]
    cases d <;> exact Account.refl w
  · simp only [he, if_false]
    refine raise_account ?_ _
    cases d with
    | none =>
      refine ⟨by simp [owned], fun hw => ⟨fun x hx => Nat.lt_succ_of_lt (hw.past x hx), hw.nodup⟩, fun h => absurd h he⟩
    | some n =>
      cases hv : (f w.clock).val with
      | none =>
        refine ⟨by simp [owned], fun hw => ⟨fun x hx => Nat.lt_succ_of_lt (hw.past x hx), hw.nodup⟩, fun h => absurd h he⟩
      | some v =>
        refine ⟨?_, ?_, fun h => absurd h he⟩
        · simp only [Option.map_some, owned, ← Multiset.singleton_add]; abel
        · intro hw
          refine ⟨?_, ?_⟩
          · intro x hx
            rcases Multiset.mem_cons.1 hx with rfl | hx
            · exact Nat.lt_succ_self _
            · exact Nat.lt_succ_of_lt (hw.past x hx)
          · simp only [Multiset.map_cons, Multiset.nodup_cons]
            refine ⟨?_, hw.nodup⟩
            intro h
            obtain ⟨x, hx, hxe⟩ := Multiset.mem_map.1 h
            have := hw.past x hx
            omega

theorem destroy_account (fails : Nat → Nat → Int) (d : Option Nat) (x : Option (Obj V)) {w w' : World}
    {o : Multiset (Nat × Nat)} (h : Account w w' (o + owned d x)) : Account w (destroy fails d x w') o := by
  unfold destroy
  cases d with
  | none => simpa [owned] using h
  | some n =>
    cases x with
    | none => simpa [owned] using h
    | some b =>
      refine raise_account (w' := { w' with
        clock := w'.clock + 1
        freed := (b.id, n) ::ₘ w'.freed
        upset := w'.upset || decide (fails n w'.clock ≠ 0) }) ⟨?_, ?_, h.err⟩ _
      · have := h.ledger
        simp only [owned] at this
        simp only [← Multiset.singleton_add]
        rw [this]; abel
      · intro hw
        exact ⟨fun y hy => Nat.lt_succ_of_lt ((h.wf hw).past y hy), (h.wf hw).nodup⟩

theorem destroy_err (fails : Nat → Nat → Int) (d : Option Nat) (x : Option (Obj V)) (w : World) (he : w.err ≠ 0) :
    (destroy fails d x w).err = w.err := by
  unfold destroy
  cases d <;> cases x <;> simp_all [World.raise]

/-- What a map action must do: account for its result. -/
def Good (d : Option Nat) (act : A → World → Option (Obj V) × World) : Prop :=
  ∀ a w, Account w (act a w).2 (owned d (act a w).1)

theorem foldLoop_account (fails : Nat → Nat → Int) (m : CruFold A V) (red : Nat → Option V → Option V → Outcome V)
    (mapAct : A → World → Option (Obj V) × World) (hm : Good m.mFree mapAct) (es : List A) :
    ∀ (prev : Option (Obj V)) (w0 w : World), Account w0 w (owned m.rFree prev) →
      Account w0 (foldLoop fails m red mapAct es prev w).2
        (owned m.rFree (foldLoop fails m red mapAct es prev w).1) := by
  induction es with
  | nil => intro prev w0 w h; exact h
  | cons e es ih =>
    intro prev w0 w h
    unfold foldLoop
    by_cases he : w.err ≠ 0
    · simpa [he] using h
    · simp only [he, if_false]
      apply ih
      have h1 := h.trans (hm e w)
      generalize mapAct e w = x at *
      apply destroy_account
      apply destroy_account
      by_cases hx : x.2.err ≠ 0
      · rw [if_pos hx]
        have : owned m.rFree (none : Option (Obj V)) = 0 := by cases m.rFree <;> rfl
        rw [this]
        simpa using h1
      · rw [if_neg hx]
        have h2 := h1.trans (applied_account (fun t => red t (x.1.map Obj.val) (prev.map Obj.val)) m.rFree x.2)
        refine ⟨?_, h2.wf, h2.err⟩
        rw [h2.ledger]; abel

theorem owned_none (d : Option Nat) : owned d (none : Option (Obj V)) = 0 := by cases d <;> rfl

theorem foldTail_account (fails : Nat → Nat → Int) (m : CruFold A V) (mapAct : A → World → Option (Obj V) × World)
    (noRed : Int) (hm : Good m.mFree mapAct) (es : List A) (s : Option (Obj V) × World) (w : World)
    (h : Account w s.2 (owned m.rFree s.1)) :
    Account w (foldTail fails m mapAct noRed es s).2 (owned m.rFree (foldTail fails m mapAct noRed es s).1) ∧
    ((foldTail fails m mapAct noRed es s).2.err ≠ 0 → (foldTail fails m mapAct noRed es s).1 = none) := by
  have key : ∀ l : Option (Obj V) × World, Account w l.2 (owned m.rFree l.1) →
      Account w (if l.2.err ≠ 0 then (none, destroy fails m.rFree l.1 l.2) else l).2
        (owned m.rFree (if l.2.err ≠ 0 then (none, destroy fails m.rFree l.1 l.2) else l).1) ∧
      ((if l.2.err ≠ 0 then (none, destroy fails m.rFree l.1 l.2) else l).2.err ≠ 0 →
        (if l.2.err ≠ 0 then (none, destroy fails m.rFree l.1 l.2) else l).1 = none) := by
    intro l hl
    by_cases he : l.2.err ≠ 0
    · rw [if_pos he, owned_none]
      exact ⟨destroy_account fails _ _ (by simpa using hl), fun _ => rfl⟩
    · rw [if_neg he]
      exact ⟨hl, fun h' => absurd h' he⟩
  unfold foldTail
  apply key
  cases es with
  | nil => exact h
  | cons e es =>
    cases hr : m.reduction with
    | none => exact raise_account h _
    | some red => exact foldLoop_account fails m red mapAct hm _ _ _ _ h

theorem foldWith_account (fails : Nat → Nat → Int) (m : CruFold A V)
    (seedAct mapAct : A → World → Option (Obj V) × World) (badFree noRed : Int) (hs : Good m.mFree seedAct)
    (hm : Good m.mFree mapAct) (hb : badFree ≠ 0) (es : List A) (w : World) :
    Account w (foldWith fails m seedAct mapAct badFree noRed es w).2
      (owned m.rFree (foldWith fails m seedAct mapAct badFree noRed es w).1) ∧
    (es ≠ [] → (foldWith fails m seedAct mapAct badFree noRed es w).2.err ≠ 0 →
      (foldWith fails m seedAct mapAct badFree noRed es w).1 = none) := by
  unfold foldWith
  cases es with
  | nil =>
    cases m.vacuous with
    | none => exact ⟨by rw [owned_none]; exact raise_account (Account.refl w) _, fun h => absurd rfl h⟩
    | some z => exact ⟨applied_account z _ w, fun h => absurd rfl h⟩
  | cons e es =>
    cases m.vacuous with
    | none =>
      simp only
      by_cases hf : m.mFree ≠ m.rFree
      · simp only [hf, if_true, ne_eq, not_false_eq_true]
        exact ⟨by rw [owned_none]; exact raise_account (Account.refl w) _, fun _ _ => trivial⟩
      · simp only [hf, if_false]
        have hf' : m.mFree = m.rFree := not_not.1 hf
        obtain ⟨h1, h2⟩ := foldTail_account fails m mapAct noRed hm es (seedAct e w) w (by rw [← hf']; exact hs e w)
        exact ⟨h1, fun _ => h2⟩
    | some z =>
      obtain ⟨h1, h2⟩ := foldTail_account fails m mapAct noRed hm (e :: es) _ w (applied_account z m.rFree w)
      exact ⟨h1, fun _ => h2⟩

theorem seed_good (m : CruFold A V) : Good m.mFree m.seed := by
  intro a w
  unfold CruFold.seed
  split
  · exact applied_account _ _ w
  · exact applied_account _ _ w
  · rw [owned_none]; exact Account.refl w

theorem next_good (m : CruFold A V) : Good m.mFree m.next := by
  intro a w
  unfold CruFold.next
  split
  · exact applied_account _ _ w
  · exact applied_account _ _ w
  · rw [owned_none]; exact Account.refl w

theorem reducedEdges_account (fails : Nat → Nat → Int) (m : CruFold A V) (es : List A) (w : World) :
    Account w (reducedEdges fails m es w).2 (owned m.rFree (reducedEdges fails m es w).1) ∧
    (es ≠ [] → (reducedEdges fails m es w).2.err ≠ 0 → (reducedEdges fails m es w).1 = none) := by
  unfold reducedEdges
  split
  · exact ⟨by rw [owned_none]; exact raise_account (Account.refl w) _, fun _ _ => rfl⟩
  · exact foldWith_account fails m _ _ _ _ (seed_good m) (next_good m) (by decide) es w

theorem reducedIf_account (fails : Nat → Nat → Int) (m : Option (CruFold A V)) (es : List A) (w : World) :
    Account w (reducedIf fails m es w).2 (owned (rFreeOf m) (reducedIf fails m es w).1) := by
  cases m with
  | none => simpa [reducedIf, owned_none] using Account.refl w
  | some m => exact (reducedEdges_account fails m es w).1

theorem mappedNode_account (fails : Nat → Nat → Int) (p : CruProp A U V) (n : Vertex A U) (w : World) :
    Account w (mappedNode fails p n w).2 (owned p.vertex.mFree (mappedNode fails p n w).1) ∧
    ((mappedNode fails p n w).2.err ≠ 0 → (mappedNode fails p n w).1 = none) := by
  unfold mappedNode
  split
  · exact ⟨by rw [owned_none]; exact raise_account (Account.refl w) _, fun _ => rfl⟩
  split
  · exact ⟨by rw [owned_none]; exact Account.refl w, fun _ => rfl⟩
  simp only
  have h1 := reducedIf_account fails (p.incident n.vertex) n.edgesIn w
  generalize reducedIf fails (p.incident n.vertex) n.edgesIn w = i at *
  have h2 := h1.trans (reducedIf_account fails (p.outgoing n.vertex) n.edgesOut i.2)
  generalize reducedIf fails (p.outgoing n.vertex) n.edgesOut i.2 = o at *
  have h3 := h2.trans (seed_good p.vertex (i.1.map Obj.val, n.vertex, o.1.map Obj.val) o.2)
  generalize p.vertex.seed (i.1.map Obj.val, n.vertex, o.1.map Obj.val) o.2 = x at *
  have h4 : Account w (destroy fails (rFreeOf (p.outgoing n.vertex)) o.1
      (destroy fails (rFreeOf (p.incident n.vertex)) i.1 x.2)) (owned p.vertex.mFree x.1) := by
    apply destroy_account
    apply destroy_account
    refine ⟨?_, h3.wf, h3.err⟩
    rw [h3.ledger]; abel
  generalize destroy fails (rFreeOf (p.outgoing n.vertex)) o.1
      (destroy fails (rFreeOf (p.incident n.vertex)) i.1 x.2) = w2 at *
  by_cases he : w2.err ≠ 0
  · rw [if_pos he, owned_none]
    exact ⟨destroy_account fails _ _ (by simpa using h4), fun _ => rfl⟩
  · rw [if_neg he]
    exact ⟨h4, fun h' => absurd h' he⟩

theorem reducedNodes_account (fails : Nat → Nat → Int) (p : CruProp A U V) (ns : List (Vertex A U)) (w : World) :
    Account w (reducedNodes fails p ns w).2 (owned p.vertex.rFree (reducedNodes fails p ns w).1) ∧
    (ns ≠ [] → (reducedNodes fails p ns w).2.err ≠ 0 → (reducedNodes fails p ns w).1 = none) :=
  foldWith_account fails ⟨p.vertex.vacuous, none, none, p.vertex.reduction, p.vertex.mFree, p.vertex.rFree⟩ _ _ _ _
    (fun n w => (mappedNode_account fails p n w).1) (fun n w => (mappedNode_account fails p n w).1) (by decide) ns w

/-! ### Values -/

/-- A map action that never fails and computes `f`. -/
def Computes (act : A → World → Option (Obj V) × World) (f : A → Option V) : Prop :=
  ∀ a w, w.err = 0 → (act a w).1.map Obj.val = f a ∧ (act a w).2.err = 0

theorem applied_value (f : Nat → Outcome V) (d : Option Nat) (w : World) (v : Option V) (hf : ∀ t, f t = ⟨v, 0⟩)
    (he : w.err = 0) : (applied f d w).1.map Obj.val = v ∧ (applied f d w).2.err = 0 := by
  unfold applied
  rw [if_neg (by simp [he])]
  constructor
  · simp only [hf]; cases v <;> simp
  · simp only [hf, World.raise]; simp [he]

theorem destroy_value (fails : Nat → Nat → Int) (hd : ∀ n t, fails n t = 0) (d : Option Nat) (x : Option (Obj V))
    (w : World) (he : w.err = 0) : (destroy fails d x w).err = 0 := by
  unfold destroy
  cases d <;> cases x <;> simp [World.raise, he, hd]

theorem foldLoop_value (fails : Nat → Nat → Int) (hd : ∀ n t, fails n t = 0) (m : CruFold A V)
    (red : Nat → Option V → Option V → Outcome V) (g : Option V → Option V → Option V)
    (hg : ∀ t x y, red t x y = ⟨g x y, 0⟩)
    (mapAct : A → World → Option (Obj V) × World) (f : A → Option V) (hm : Computes mapAct f) (es : List A) :
    ∀ (prev : Option (Obj V)) (w : World), w.err = 0 →
      (foldLoop fails m red mapAct es prev w).1.map Obj.val = es.foldl (fun acc e => g (f e) acc) (prev.map Obj.val) ∧
      (foldLoop fails m red mapAct es prev w).2.err = 0 := by
  induction es with
  | nil => intro prev w he; exact ⟨rfl, he⟩
  | cons e es ih =>
    intro prev w he
    unfold foldLoop
    rw [if_neg (by simp [he])]
    obtain ⟨h1, h2⟩ := hm e w he
    simp only [if_neg (show ¬ ((mapAct e w).2.err ≠ 0) by simp [h2])]
    generalize mapAct e w = x at *
    obtain ⟨h3, h4⟩ := applied_value (fun t => red t (x.1.map Obj.val) (prev.map Obj.val)) m.rFree x.2
      (g (f e) (prev.map Obj.val)) (by intro t; rw [hg, h1]) h2
    obtain ⟨h5, h6⟩ := ih (applied (fun t => red t (x.1.map Obj.val) (prev.map Obj.val)) m.rFree x.2).1 _
      (destroy_value fails hd m.rFree prev _ (destroy_value fails hd m.mFree x.1 _ h4))
    exact ⟨by rw [h5, h3]; rfl, h6⟩

theorem foldTail_value (fails : Nat → Nat → Int) (hd : ∀ n t, fails n t = 0) (m : CruFold A V)
    (g : Option V → Option V → Option V) (hg : ∃ red, m.reduction = some red ∧ ∀ t x y, red t x y = ⟨g x y, 0⟩)
    (mapAct : A → World → Option (Obj V) × World) (f : A → Option V) (hm : Computes mapAct f) (noRed : Int) (es : List A)
    (s : Option (Obj V) × World) (he : s.2.err = 0) :
    (foldTail fails m mapAct noRed es s).1.map Obj.val = es.foldl (fun acc e => g (f e) acc) (s.1.map Obj.val) ∧
      (foldTail fails m mapAct noRed es s).2.err = 0 := by
  obtain ⟨red, hr, hg⟩ := hg
  unfold foldTail
  cases es with
  | nil => simp [he]
  | cons e es =>
    rw [hr]
    obtain ⟨h1, h2⟩ := foldLoop_value fails hd m red g hg mapAct f hm (e :: es) s.1 s.2 he
    simp only [h2, ne_eq, not_true_eq_false, if_false]
    exact ⟨h1, trivial⟩

end Cru.Fold
