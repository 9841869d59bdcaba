import Verif.Spec.Classes
import Mathlib.Data.Finset.Card
import Mathlib.Tactic.SplitIfs

/-! # C23, C24: uniting classes -/

namespace Cru.Classes

open Relation

variable {k : Nat} {U : Type} {p : Part k}

/-- `b` is the superclass of `a`. -/
def Up (p : Part k) (a b : Fin k) : Prop := p.sup a = some b

/-- `r` is the outermost superclass of `a`. -/
def Root (p : Part k) (a r : Fin k) : Prop := ReflTransGen (Up p) a r ∧ p.sup r = none

/-- Superclass pointers don't go in circles. -/
def Ranked (p : Part k) : Prop := ∃ e : Fin k → Nat, ∀ a b, Up p a b → e b < e a

theorem Root.unique {a r r'} (h : Root p a r) (h' : Root p a r') : r = r' := by
  obtain ⟨h, hr⟩ := h
  induction h using ReflTransGen.head_induction_on with
  | refl =>
    rcases ReflTransGen.cases_head h'.1 with e | ⟨c, hc, _⟩
    · exact e
    · rw [Up, hr] at hc; cases hc
  | head hab _ ih =>
    rcases ReflTransGen.cases_head h'.1 with e | ⟨c, hc, h2⟩
    · subst e; rw [Up, h'.2] at hab; cases hab
    · have : some _ = some c := hab.symm.trans hc
      injection this with this
      subst this
      exact ih ⟨h2, h'.2⟩

theorem root_exists (hr : Ranked p) (a : Fin k) : ∃ r, Root p a r := by
  obtain ⟨e, he⟩ := hr
  induction hn : e a using Nat.strong_induction_on generalizing a with
  | _ n ih =>
    rcases hs : p.sup a with _ | b
    · exact ⟨a, .refl, hs⟩
    · obtain ⟨r, h1, h2⟩ := ih (e b) (hn ▸ he a b hs) b rfl
      exact ⟨r, .head hs h1, h2⟩

open Classical in
/-- The number of superclasses. -/
noncomputable def height (p : Part k) (a : Fin k) : Nat := (Finset.univ.filter fun b => TransGen (Up p) a b).card

theorem height_lt (hr : Ranked p) {a b : Fin k} (h : Up p a b) : height p b < height p a := by
  classical
  obtain ⟨e, he⟩ := hr
  have hlt : ∀ c d, TransGen (Up p) c d → e d < e c := by
    intro c d h
    induction h with
    | single h => exact he _ _ h
    | tail _ h ih => exact (he _ _ h).trans ih
  refine Finset.card_lt_card ⟨?_, ?_⟩
  · intro c hc
    simp only [Finset.mem_filter, Finset.mem_univ, true_and] at hc ⊢
    exact .head h hc
  · intro hs
    have : b ∈ Finset.univ.filter fun c => TransGen (Up p) a c := by simpa using TransGen.single h
    have := hs this
    simp only [Finset.mem_filter, Finset.mem_univ, true_and] at this
    exact absurd (hlt b b this) (lt_irrefl _)

theorem height_le (a : Fin k) : height p a ≤ k := by
  classical
  unfold height
  refine (Finset.card_le_univ _).trans ?_
  simp

theorem climb_root (hr : Ranked p) {a r : Fin k} (h : Root p a r) : ∀ fuel, height p a < fuel → climb p fuel a = some r := by
  intro fuel
  induction fuel generalizing a with
  | zero => intro h; cases h
  | succ fuel ih =>
    intro hl
    unfold climb
    rcases hs : p.sup a with _ | b
    · rw [Root.unique h ⟨.refl, hs⟩]
    · rcases ReflTransGen.cases_head h.1 with e | ⟨c, hc, h2⟩
      · subst e; rw [h.2] at hs; cases hs
      · rw [Up, hs] at hc
        cases hc
        exact ih ⟨h2, h.2⟩ (lt_of_lt_of_le (height_lt hr hs) (Nat.le_of_lt_succ hl))

theorem classOf_root (hr : Ranked p) {a r : Fin k} (h : Root p a r) : classOf p a = some r :=
  climb_root hr h _ (Nat.lt_succ_of_le (height_le a))

theorem weigh_root (hr : Ranked p) {a r : Fin k} (h : Root p a r) :
    ∀ fuel xs, height p a < fuel → ∃ ys, weigh p fuel a xs = some (r, ys) := by
  intro fuel
  induction fuel generalizing a with
  | zero => intro xs h; cases h
  | succ fuel ih =>
    intro xs hl
    unfold weigh
    rcases hs : p.sup a with _ | b
    · rw [Root.unique h ⟨.refl, hs⟩]; exact ⟨xs, rfl⟩
    · rcases ReflTransGen.cases_head h.1 with e | ⟨c, hc, h2⟩
      · subst e; rw [h.2] at hs; cases hs
      · rw [Up, hs] at hc
        cases hc
        exact ih ⟨h2, h.2⟩ _ (lt_of_lt_of_le (height_lt hr hs) (Nat.le_of_lt_succ hl))

/-- What a part looks like when some classes below `x` have been redirected to `y`. -/
def Moved (p q : Part k) (x y : Fin k) : Prop := q.refs = p.refs ∧ ∀ a, q.sup a = p.sup a ∨ (q.sup a = some y ∧ Root p a x)

theorem redirect_moved (hr : Ranked p) {x y : Fin k} :
    ∀ fuel xl q, height p xl < fuel → Moved p q x y → Root p xl x → (∀ b, ReflTransGen (Up p) xl b → q.sup b = p.sup b) →
      ∃ q', redirect y fuel xl q = some q' ∧ Moved p q' x y := by
  intro fuel
  induction fuel with
  | zero => intro xl q h; cases h
  | succ fuel ih =>
    intro xl q hl hm hx ha
    unfold redirect
    rcases hs : q.sup xl with _ | s
    · exact ⟨q, rfl, hm⟩
    · have hs' : Up p xl s := by rw [Up, ← ha xl .refl]; exact hs
      refine ih s _ (lt_of_lt_of_le (height_lt hr hs') (Nat.le_of_lt_succ hl)) ⟨hm.1, fun a => ?_⟩ ?_ ?_
      · by_cases h : a = xl
        · subst h; exact .inr ⟨by simp, hx⟩
        · simp only [Function.update_of_ne h]; exact hm.2 a
      · rcases ReflTransGen.cases_head hx.1 with e | ⟨c, hc, h2⟩
        · subst e; rw [Up, hx.2] at hs'; cases hs'
        · rw [Up] at hs' hc
          rw [hs'] at hc
          cases hc
          exact ⟨h2, hx.2⟩
      · intro b hb
        have hne : b ≠ xl := by
          rintro rfl
          obtain ⟨e, he⟩ := hr
          have : ∀ c d, ReflTransGen (Up p) c d → e d ≤ e c := by
            intro c d h
            induction h with
            | refl => exact Nat.le_refl _
            | tail _ h ih => exact (Nat.le_of_lt (he _ _ h)).trans ih
          have h1 := this _ _ hb
          have h2 := he _ _ hs'
          omega
        simp only [Function.update_of_ne hne]
        exact ha b (.head hs' hb)

/-- The effect of linking one root below another. -/
theorem link_root (hr : Ranked p) {q : Part k} {x y : Fin k} (hx : p.sup x = none) (hy : p.sup y = none) (hne : x ≠ y)
    (hm : Moved p q x y) :
    Ranked (link q x y) ∧ (link q x y).refs = p.refs ∧
    ∀ a r, Root p a r → Root (link q x y) a (if r = x then y else r) := by
  have hrx : Root p x x := ⟨.refl, hx⟩
  have hry : Root p y y := ⟨.refl, hy⟩
  have hcase : ∀ a, (link q x y).sup a = p.sup a ∧ a ≠ x ∨ (link q x y).sup a = some y ∧ Root p a x := by
    intro a
    by_cases h : a = x
    · subst h; exact .inr ⟨by simp [link], hrx⟩
    · simp only [link, Function.update_of_ne h]
      rcases hm.2 a with h1 | h1
      · exact .inl ⟨h1, h⟩
      · exact .inr h1
  have hsy : (link q x y).sup y = none := by
    rcases hcase y with h | h
    · rw [h.1, hy]
    · exact absurd (hry.unique h.2).symm hne
  have hup : ∀ {a b}, Up p a b → ∀ r, Root p a r ↔ Root p b r := by
    intro a b hab r
    refine ⟨fun h => ?_, fun h => ⟨.head hab h.1, h.2⟩⟩
    rcases ReflTransGen.cases_head h.1 with e | ⟨c, hc, h2⟩
    · subst e; rw [Up, h.2] at hab; cases hab
    · have : some b = some c := hab.symm.trans hc
      injection this with this
      subst this
      exact ⟨h2, h.2⟩
  have hrk : Ranked (link q x y) := by
    classical
    obtain ⟨e, he⟩ := hr
    refine ⟨fun a => if Root p a x then e a + e y + 1 else e a, fun a b hab => ?_⟩
    have hny : ¬ Root p y x := fun h => hne (hry.unique h).symm
    rcases hcase a with h | h
    · rw [Up, h.1] at hab
      have h1 := he a b hab
      have h2 := hup hab x
      by_cases hb : Root p b x
      · simp only [hb, h2.2 hb, if_true]; omega
      · simp only [hb, mt h2.1 hb, if_false]; exact h1
    · rw [Up, h.1] at hab
      cases hab
      simp only [h.2, hny, if_true, if_false]
      omega
  refine ⟨hrk, hm.1, ?_⟩
  obtain ⟨e, he⟩ := hrk
  intro a
  induction hn : e a using Nat.strong_induction_on generalizing a with
  | _ n ih =>
    intro r h
    rcases hs : (link q x y).sup a with _ | b
    · rcases hcase a with h1 | h1
      · rw [hs] at h1
        have : r = a := h.unique ⟨.refl, h1.1.symm⟩
        subst this
        rw [if_neg h1.2]
        exact ⟨.refl, hs⟩
      · rw [hs] at h1; cases h1.1
    · rcases hcase a with h1 | h1
      · rw [hs] at h1
        have := ih (e b) (hn ▸ he a b hs) b rfl r ((hup h1.1.symm r).1 h)
        exact ⟨.head hs this.1, this.2⟩
      · have : r = x := h.unique h1.2
        rw [if_pos this]
        exact ⟨.single h1.1, hsy⟩

/-- `cru_united` returns, and merges exactly the classes given. -/
theorem united_root (hr : Ranked p) (xl yl : Fin k) {x y : Fin k} (hx : Root p xl x) (hy : Root p yl y) :
    ∃ q, united p xl yl = some q ∧ Ranked q ∧ q.refs = p.refs ∧ ∃ f : Fin k → Fin k,
      (∀ a r, Root p a r → Root q a (f r)) ∧ ∀ r s, p.sup r = none → p.sup s = none →
        (f r = f s ↔ r = s ∨ (r = x ∧ s = y) ∨ (r = y ∧ s = x)) := by
  obtain ⟨xs, hwx⟩ := weigh_root hr hx (k + 1) 0 (Nat.lt_succ_of_le (height_le _))
  obtain ⟨ys, hwy⟩ := weigh_root hr hy (k + 1) 0 (Nat.lt_succ_of_le (height_le _))
  have hp : Moved p p x y := ⟨rfl, fun _ => .inl rfl⟩
  have hp' : Moved p p y x := ⟨rfl, fun _ => .inl rfl⟩
  unfold united
  rw [hwx, hwy]
  simp only [Option.bind_eq_bind, Option.bind_some, Option.pure_def]
  by_cases hne : x = y
  · rw [if_pos hne]
    refine ⟨p, rfl, hr, rfl, id, fun a r h => h, fun r s _ _ => ?_⟩
    subst hne
    constructor
    · exact .inl
    · rintro (h | ⟨h, h'⟩ | ⟨h, h'⟩) <;> simp_all
  · rw [if_neg hne]
    by_cases hlt : xs < ys
    · rw [if_pos hlt]
      obtain ⟨q, hq, hm⟩ := redirect_moved hr (k + 1) xl p (Nat.lt_succ_of_le (height_le _)) hp hx (fun _ _ => rfl)
      obtain ⟨h1, h2, h3⟩ := link_root hr hx.2 hy.2 hne hm
      rw [hq]
      refine ⟨_, rfl, h1, h2, fun r => if r = x then y else r, h3, fun r s _ _ => ?_⟩
      simp only
      split_ifs with c1 c2 c2 <;> subst_vars <;> simp_all [eq_comm] 
    · rw [if_neg hlt]
      obtain ⟨q, hq, hm⟩ := redirect_moved hr (k + 1) yl p (Nat.lt_succ_of_le (height_le _)) hp' hy (fun _ _ => rfl)
      obtain ⟨h1, h2, h3⟩ := link_root hr hy.2 hx.2 (Ne.symm hne) hm
      rw [hq]
      refine ⟨_, rfl, h1, h2, fun r => if r = y then x else r, h3, fun r s _ _ => ?_⟩
      simp only
      split_ifs with c1 c2 c2 <;> subst_vars <;> simp_all [eq_comm]

/-- Two vertices are in the same class. -/
def Together (p : Part k) (c d : Fin k) : Prop := ∃ r, Root p c r ∧ Root p d r

theorem together_classOf (hr : Ranked p) (c d : Fin k) : Together p c d ↔ classOf p c = classOf p d := by
  obtain ⟨r, h1⟩ := root_exists hr c
  obtain ⟨s, h2⟩ := root_exists hr d
  rw [classOf_root hr h1, classOf_root hr h2]
  constructor
  · rintro ⟨t, h3, h4⟩; rw [h1.unique h3, h2.unique h4]
  · intro h; cases h; exact ⟨r, h1, h2⟩

theorem declared_snoc {cls : U → Fin k} {ops : List (Op U)} {o : Op U} {v w : U} :
    Declared cls (ops ++ [o]) v w ↔ Declared cls ops v w ∨
      ∃ i j, o = .united i j ∧ (askedBy ops)[i]? = some v ∧ (askedBy ops)[j]? = some w := by
  constructor
  · intro hd
    cases hd with
    | initially h => exact .inl (.initially h)
    | @united before i j after h hi hj =>
      rcases List.eq_nil_or_concat after with rfl | ⟨a, x, rfl⟩
      · obtain ⟨h1, h2⟩ := List.append_inj' h rfl
        subst h1
        simp only [List.cons.injEq, and_true] at h2
        exact .inr ⟨i, j, h2, hi, hj⟩
      · rw [List.concat_eq_append, ← List.cons_append, ← List.append_assoc] at h
        exact .inl (.united (List.append_inj' h rfl).1 hi hj)
  · rintro (h | ⟨i, j, rfl, hi, hj⟩)
    · cases h with
      | initially h => exact .initially h
      | @united before i j after h hi hj => subst h; exact .united (after := after ++ [o]) (by simp) hi hj
    · exact .united rfl hi hj

/-- What holds after some operations. -/
structure Inv (p₀ : Part k) (cls : U → Fin k) (ops : List (Op U)) (u : Use k U) : Prop where
  ranked : Ranked u.part
  refs : u.part.refs = p₀.refs
  asked : u.asked.map Prod.fst = askedBy ops
  answers : ∀ x ∈ u.asked, Together u.part (cls x.1) x.2
  same : ∀ v w, Together u.part (cls v) (cls w) ↔ EqvGen (Declared cls ops) v w

theorem inv_step {p₀ : Part k} {cls : U → Fin k} {ops : List (Op U)} {u : Use k U} (h : Inv p₀ cls ops u) (o : Op U) :
    ∃ u', u.step cls o = some u' ∧ Inv p₀ cls (ops ++ [o]) u' := by
  have mono : ∀ v w, EqvGen (Declared cls ops) v w → EqvGen (Declared cls (ops ++ [o])) v w := by
    intro v w hd
    exact hd.mono fun a b hab => declared_snoc.2 (.inl hab)
  cases o with
  | classOf v =>
    obtain ⟨r, hr⟩ := root_exists h.ranked (cls v)
    refine ⟨{ u with asked := u.asked ++ [(v, r)] }, by simp [Use.step, classOf_root h.ranked hr], h.ranked, h.refs, ?_, ?_, ?_⟩
    · simp [h.asked, askedBy]
    · intro x hx
      rcases List.mem_append.1 hx with hx | hx
      · exact h.answers x hx
      · rw [List.mem_singleton] at hx
        subst hx
        exact ⟨r, hr, .refl, hr.2⟩
    · intro v w
      rw [h.same v w]
      refine ⟨mono v w, fun hd => hd.mono fun a b hab => ?_⟩
      rcases declared_snoc.1 hab with h | ⟨i, j, h, _⟩
      · exact h
      · cases h
  | united i j =>
    have hget : ∀ i : Nat, (askedBy ops)[i]? = (u.asked[i]?).map Prod.fst := by
      intro i; rw [← h.asked, List.getElem?_map]
    rcases hi : u.asked[i]? with _ | x
    · refine ⟨u, by simp [Use.step, hi], h.ranked, h.refs, ?_, h.answers, ?_⟩
      · simp [h.asked, askedBy]
      · intro v w
        rw [h.same v w]
        refine ⟨mono v w, fun hd => hd.mono fun a b hab => ?_⟩
        rcases declared_snoc.1 hab with h | ⟨i', j', he, h1, _⟩
        · exact h
        · cases he
          rw [hget, hi] at h1; cases h1
    · rcases hj : u.asked[j]? with _ | y
      · refine ⟨u, by simp [Use.step, hi, hj], h.ranked, h.refs, ?_, h.answers, ?_⟩
        · simp [h.asked, askedBy]
        · intro v w
          rw [h.same v w]
          refine ⟨mono v w, fun hd => hd.mono fun a b hab => ?_⟩
          rcases declared_snoc.1 hab with h | ⟨i', j', he, _, h2⟩
          · exact h
          · cases he
            rw [hget, hj] at h2; cases h2
      · obtain ⟨rx, hx1, hx2⟩ := h.answers x (List.mem_of_getElem? hi)
        obtain ⟨ry, hy1, hy2⟩ := h.answers y (List.mem_of_getElem? hj)
        obtain ⟨q, hq, hrk, hrefs, f, hf, hinj⟩ := united_root h.ranked x.2 y.2 hx2 hy2
        have ht : ∀ c d r s, Root u.part c r → Root u.part d s →
            (Together q c d ↔ r = s ∨ (r = rx ∧ s = ry) ∨ (r = ry ∧ s = rx)) := by
          intro c d r s hc hd
          rw [← hinj r s hc.2 hd.2]
          constructor
          · rintro ⟨t, h1, h2⟩; rw [(hf c r hc).unique h1, (hf d s hd).unique h2]
          · intro he; exact ⟨f r, hf c r hc, he ▸ hf d s hd⟩
        refine ⟨{ u with part := q }, by simp [Use.step, hi, hj, hq], hrk, hrefs.trans h.refs, ?_, ?_, ?_⟩
        · simp [h.asked, askedBy]
        · intro z hz
          obtain ⟨r, h1, h2⟩ := h.answers z hz
          exact (ht _ _ r r h1 h2).2 (.inl rfl)
        · intro v w
          obtain ⟨r, hr⟩ := root_exists h.ranked (cls v)
          obtain ⟨s, hs⟩ := root_exists h.ranked (cls w)
          have hnew : EqvGen (Declared cls (ops ++ [.united i j])) x.1 y.1 :=
            .rel _ _ (declared_snoc.2 (.inr ⟨i, j, rfl, by rw [hget, hi]; rfl, by rw [hget, hj]; rfl⟩))
          constructor
          · intro htog
            rcases (ht _ _ r s hr hs).1 htog with rfl | ⟨rfl, rfl⟩ | ⟨rfl, rfl⟩
            · exact mono _ _ ((h.same v w).1 ⟨r, hr, hs⟩)
            · exact .trans _ _ _ (mono _ _ ((h.same v x.1).1 ⟨_, hr, hx1⟩))
                (.trans _ _ _ hnew (mono _ _ ((h.same y.1 w).1 ⟨_, hy1, hs⟩)))
            · exact .trans _ _ _ (mono _ _ ((h.same v y.1).1 ⟨_, hr, hy1⟩))
                (.trans _ _ _ (.symm _ _ hnew) (mono _ _ ((h.same x.1 w).1 ⟨_, hx1, hs⟩)))
          · intro hd
            clear hr hs r s
            induction hd with
            | rel a b hab =>
              obtain ⟨r, hr⟩ := root_exists h.ranked (cls a)
              obtain ⟨s, hs⟩ := root_exists h.ranked (cls b)
              refine (ht _ _ r s hr hs).2 ?_
              rcases declared_snoc.1 hab with hab | ⟨i', j', he, h1, h2⟩
              · obtain ⟨t, h3, h4⟩ := (h.same a b).2 (.rel _ _ hab)
                exact .inl ((hr.unique h3).trans (hs.unique h4).symm)
              · cases he
                rw [hget, hi] at h1
                rw [hget, hj] at h2
                cases h1
                cases h2
                exact .inr (.inl ⟨hr.unique hx1, hs.unique hy1⟩)
            | refl a => obtain ⟨r, hr⟩ := root_exists hrk (cls a); exact ⟨r, hr, hr⟩
            | symm a b _ ih => obtain ⟨r, h1, h2⟩ := ih; exact ⟨r, h2, h1⟩
            | trans a b c _ _ ih1 ih2 =>
              obtain ⟨r, h1, h2⟩ := ih1
              obtain ⟨s, h3, h4⟩ := ih2
              exact ⟨r, h1, (h2.unique h3) ▸ h4⟩

theorem inv_run {p₀ : Part k} {cls : U → Fin k} (more : List (Op U)) : ∀ (ops : List (Op U)) (u : Use k U), Inv p₀ cls ops u →
    ∃ u', Use.run cls more u = some u' ∧ Inv p₀ cls (ops ++ more) u' := by
  induction more with
  | nil => intro ops u h; exact ⟨u, rfl, by simpa using h⟩
  | cons o more ih =>
    intro ops u h
    obtain ⟨u1, h1, h2⟩ := inv_step h o
    obtain ⟨u2, h3, h4⟩ := ih _ _ h2
    exact ⟨u2, by simp [Use.run, h1, h3], by simpa using h4⟩

theorem inv_start {p : Part k} {cls : U → Fin k} (h : ∀ c, p.sup c = none) : Inv p cls [] ⟨p, []⟩ := by
  have hroot : ∀ c, Root p c c := fun c => ⟨.refl, h c⟩
  refine ⟨⟨fun _ => 0, fun a b hab => ?_⟩, rfl, rfl, by simp, fun v w => ?_⟩
  · rw [Up, h a] at hab; cases hab
  · constructor
    · rintro ⟨r, h1, h2⟩
      exact .rel _ _ (.initially ((h1.unique (hroot _)).symm.trans (h2.unique (hroot _))))
    · intro hd
      have : cls v = cls w := by
        induction hd with
        | rel a b hab =>
          cases hab with
          | initially h => exact h
          | united h => simp at h
        | refl a => rfl
        | symm a b _ ih => exact ih.symm
        | trans a b c _ _ ih1 ih2 => exact ih1.trans ih2
      rw [this]
      exact ⟨_, hroot _, hroot _⟩

theorem countP_lt_of {P Q : U → Bool} {vs : List U} (h : ∀ x, P x = true → Q x = true) {x : U} (hx : x ∈ vs) (hp : P x = false)
    (hq : Q x = true) : vs.countP P < vs.countP Q := by
  induction vs with
  | nil => cases hx
  | cons y ys ih =>
    have hle : ys.countP P ≤ ys.countP Q := List.countP_mono_left fun z _ => h z
    rcases List.mem_cons.1 hx with rfl | hx
    · rw [List.countP_cons, List.countP_cons, hp, hq]
      simp; omega
    · have := ih hx
      rw [List.countP_cons, List.countP_cons]
      by_cases hy : P y = true
      · rw [hy, h y hy]; simp; omega
      · rw [Bool.not_eq_true] at hy
        rw [hy]; simp; omega

/-- **C23.** Starting from a new partition and after any history of operations, all of which return, any two vertices have the
same class exactly if they belong together in the equivalence relation generated by the initial classes and the pairs that
were united, however old the class pointers passed to `cru_united` were. -/
theorem C23_united (p : Part k) (cls : U → Fin k) (hp : ∀ c, p.sup c = none) (ops : List (Op U)) :
    ∃ u, Use.run cls ops ⟨p, []⟩ = some u ∧ ∀ v w, ∃ c d, classOf u.part (cls v) = some c ∧ classOf u.part (cls w) = some d ∧
      (c = d ↔ EqvGen (Declared cls ops) v w) := by
  obtain ⟨u, h1, h2⟩ := inv_run ops [] ⟨p, []⟩ (inv_start (cls := cls) hp)
  refine ⟨u, h1, fun v w => ?_⟩
  obtain ⟨r, hr⟩ := root_exists h2.ranked (cls v)
  obtain ⟨s, hs⟩ := root_exists h2.ranked (cls w)
  refine ⟨r, s, classOf_root h2.ranked hr, classOf_root h2.ranked hs, ?_⟩
  have := h2.same v w
  rw [together_classOf h2.ranked, classOf_root h2.ranked hr, classOf_root h2.ranked hs, Option.some.injEq] at this
  simpa using this

/-- **C24.** After any history the size reported for a class is the number of vertices in it at the beginning. -/
theorem C24_stale (p : Part k) (vs : List U) (cls : U → Fin k) (hp : Fresh p vs cls) (ops : List (Op U)) :
    ∃ u, Use.run cls ops ⟨p, []⟩ = some u ∧ ∀ c, classSize u.part c = vs.countP fun v => cls v = c := by
  obtain ⟨u, h1, h2⟩ := inv_run ops [] ⟨p, []⟩ (inv_start (cls := cls) hp.sup)
  exact ⟨u, h1, fun c => by rw [classSize, h2.refs, hp.refs]⟩

open Classical in
/-- **C24, the defect.** After any history, if two vertices that weren't together at the beginning are in the same class, the size
reported for that class is less than the number of vertices in it. -/
theorem C24_wrong (p : Part k) (vs : List U) (cls : U → Fin k) (hp : Fresh p vs cls) (ops : List (Op U)) {u : Use k U}
    (hu : Use.run cls ops ⟨p, []⟩ = some u) {v w : U} {c : Fin k} (hv : v ∈ vs) (hw : w ∈ vs)
    (hcv : classOf u.part (cls v) = some c) (hcw : classOf u.part (cls w) = some c) (hne : cls v ≠ cls w) :
    classSize u.part c < vs.countP fun x => classOf u.part (cls x) = some c := by
  obtain ⟨u', h1, h2⟩ := inv_run ops [] ⟨p, []⟩ (inv_start (cls := cls) hp.sup)
  rw [hu] at h1
  cases h1
  have hroot : Root u.part c c := by
    obtain ⟨r, hr⟩ := root_exists h2.ranked (cls v)
    rw [classOf_root h2.ranked hr] at hcv
    cases hcv
    exact ⟨.refl, hr.2⟩
  have hcc := classOf_root h2.ranked hroot
  obtain ⟨x, hx, hxc, hxne⟩ : ∃ x ∈ vs, classOf u.part (cls x) = some c ∧ cls x ≠ c := by
    by_cases h : cls v = c
    · exact ⟨w, hw, hcw, fun h' => hne (h.trans h'.symm)⟩
    · exact ⟨v, hv, hcv, h⟩
  rw [classSize, h2.refs, hp.refs]
  clear hcv hcw hv hw
  exact countP_lt_of (by intro z hz; simp only [decide_eq_true_eq] at hz ⊢; rw [hz]; exact hcc) hx (by simpa using hxne) (by simpa using hxc)

/-- **C24, where it holds.** In a partition in which no classes have been united with different ones, the size reported for the
class of a vertex is the number of vertices with that class. -/
theorem C24_unmodified (p : Part k) (vs : List U) (cls : U → Fin k) (hp : Fresh p vs cls) (v : U) :
    ∃ c, classOf p (cls v) = some c ∧ classSize p c = vs.countP fun x => classOf p (cls x) = some c := by
  have hc : ∀ c, classOf p c = some c := by
    intro c
    unfold classOf climb
    rw [hp.sup c]
  exact ⟨cls v, hc _, by simp [classSize, hp.refs, hc]⟩

/-! Demonstration: five vertices in three classes. -/

def demoCls : Nat → Fin 3
  | 0 => 0
  | 1 => 0
  | 2 => 1
  | _ => 2

def demoPart : Part 3 := ⟨fun _ => none, fun c => if c = 1 then 0 else 1⟩

theorem demo_fresh : Fresh demoPart [0, 1, 2, 3, 4] demoCls := ⟨fun _ => rfl, by decide⟩

/-- Non-vacuity of C23 and C24: vertex 1 is united with 2, and 2 with 3 using the old pointer.  All are together, and the size
reported is 2 instead of 5. -/
example : ∃ u, Use.run demoCls [.classOf 1, .classOf 2, .classOf 3, .united 0 1, .united 1 2] ⟨demoPart, []⟩ = some u ∧
    (∀ v ∈ [0, 1, 2, 3, 4], classOf u.part (demoCls v) = some 0) ∧ classSize u.part 0 = 2 := by
  obtain ⟨u, hu⟩ : ∃ u, Use.run demoCls [.classOf 1, .classOf 2, .classOf 3, .united 0 1, .united 1 2] ⟨demoPart, []⟩ = some u :=
    ⟨_, rfl⟩
  refine ⟨u, hu, ?_⟩
  cases hu
  decide

end Cru.Classes
