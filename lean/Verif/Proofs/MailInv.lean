import Verif.Proofs.Mail

/-!
# The workers together
-/

namespace Cru.Mail

open Cru.Pool

variable {R I P : Type} [DecidableEq R] [DecidableEq I] [DecidableEq P]

/-- The memory is in order as far as the workers let it be: `g` has the mutex that a worker has, and `b` the port whose field `assigned` isn't
in order. -/
structure Tidy (n : Nat) (g b : Nat → Option I) (s : State (Loc I P) (Option P) I) (a : Post R I P) : Prop where
  len : s.threads.length = a.clients.length
  dist : Distinct a.lists
  ph : ∀ t C c, s.threads[t]? = some C → a.clients[t]? = some c → Ph n s.mem C c (fun r => a.lists (.var t r)) (g t) (b t)
  gone : ∀ t, s.threads[t]? = none → g t = none ∧ b t = none
  lock : ∀ t i, g t = some i → s.writer i = some t
  void : ∀ t i, b t = some i → a.lists (.cell (.assigned i)) = []
  cells : ∀ d, (∀ t i, b t = some i → d ≠ .assigned i) → Linked s.mem none (s.mem (.cell d)) (a.lists (.cell d))

theorem reach_trans {a b c : Post R I P} (h : a.Reach b) (h' : b.Reach c) : a.Reach c := by
  induction h' with
  | init => exact h
  | step _ h1 h2 ih => exact .step ih h1 h2

/-- One worker goes on, with or without a step of the specification. -/
theorem advance {n : Nat} {g b : Nat → Option I} {s : State (Loc I P) (Option P) I} {a : Post R I P} (hi : Tidy n g b s a) {t : Nat}
    {C : Code (Loc I P) (Option P) I} {c : Client R I P} (hC : s.threads[t]? = some C) (hc : a.clients[t]? = some c)
    {c' : Client R I P} {f' : Place R I → List P} (ha : (c', f') = (c, a.lists) ∨ act t a.lists c = some (c', f'))
    {s' : State (Loc I P) (Option P) I} {C' : Code (Loc I P) (Option P) I} {g' b' : Option I} (hs : s'.threads = s.threads.set t C')
    (hm : ∀ q, (∀ r, q ∉ a.lists (.var t r)) → s'.mem (.next q) = s.mem (.next q))
    (hd : ∀ d, g t ≠ some d.port → s'.mem (.cell d) = s.mem (.cell d))
    (hw : ∀ i u, u ≠ t → s.writer i = some u → s'.writer i = some u)
    (hg : ∀ i, g' = some i → s'.writer i = some t)
    (hp : Ph n s'.mem C' c' (fun r => f' (.var t r)) g' b')
    (hf : ∀ d, g t ≠ some d.port → f' (.cell d) = a.lists (.cell d))
    (hv : ∀ i, b' = some i → f' (.cell (.assigned i)) = [])
    (hl : ∀ d, g t = some d.port → b' ≠ some d.port ∨ d ≠ .assigned d.port →
      (b t = none ∨ d ≠ .assigned d.port → Linked s.mem none (s.mem (.cell d)) (a.lists (.cell d))) →
      Linked s'.mem none (s'.mem (.cell d)) (f' (.cell d))) :
    a.Reach ⟨a.clients.set t c', f'⟩ ∧ Tidy n (Function.update g t g') (Function.update b t b') s' ⟨a.clients.set t c', f'⟩ := by
  have hlt := lt_of_get hC
  have hlt' : t < a.clients.length := hi.len ▸ hlt
  have hd' : Distinct f' := by
    rcases ha with ha | ha
    · rw [(Prod.mk.inj ha).2]
      exact hi.dist
    · exact (act_distinct ha hi.dist).1
  have ho : ∀ u r, u ≠ t → f' (.var u r) = a.lists (.var u r) := by
    intro u r hu
    rcases ha with ha | ha
    · rw [(Prod.mk.inj ha).2]
    · exact act_other ha hu r
  have hbh : ∀ u i, b u = some i → g u = some i := by
    intro u i hu
    cases hD : s.threads[u]? with
    | none => rw [(hi.gone u hD).2] at hu; cases hu
    | some D =>
      have hlu := hi.len ▸ lt_of_get hD
      exact broken_held (hi.ph u D _ hD (List.getElem?_eq_getElem hlu)) hu
  refine ⟨?_, ?_⟩
  · rcases ha with ha | ha
    · obtain ⟨e1, e2⟩ := Prod.mk.inj ha
      have : a.clients.set t c' = a.clients := by
        rw [e1]
        apply List.ext_getElem?
        intro i
        by_cases h : i = t
        · subst h
          rw [List.getElem?_set_self hlt', hc]
        · rw [List.getElem?_set_ne (Ne.symm h)]
      rw [this, e2]
      exact .init
    · exact .step .init hc ha
  · refine ⟨?_, hd', ?_, ?_, ?_, ?_, ?_⟩
    · rw [hs]
      simpa using hi.len
    · intro u D e hD he
      by_cases h : u = t
      · subst h
        rw [hs, set_same hlt] at hD
        dsimp only at he
        rw [List.getElem?_set_self hlt'] at he
        cases hD
        cases he
        simpa using hp
      · rw [hs, set_other h] at hD
        dsimp only at he
        rw [List.getElem?_set_ne (Ne.symm h)] at he
        have hu := hi.ph u D e hD he
        rw [Function.update_of_ne h, Function.update_of_ne h]
        have e1 : (fun r => f' (.var u r)) = fun r => a.lists (.var u r) := funext fun r => ho u r h
        dsimp only
        rw [e1]
        refine ph_congr (fun r q hq => hm q fun r' hr' => ?_) (fun i d hgi hdi => hd d fun e => ?_) hu
        · have := hi.dist.2 _ _ _ hq hr'
          simp only [Place.var.injEq] at this
          exact h this.1
        · have h1 := hi.lock u i hgi
          have h2 := hi.lock t _ e
          rw [hdi, h1] at h2
          exact h (Option.some.inj h2)
    · intro u hu
      rw [hs] at hu
      by_cases h : u = t
      · subst h
        rw [set_same hlt] at hu
        cases hu
      · rw [set_other h] at hu
        rw [Function.update_of_ne h, Function.update_of_ne h]
        exact hi.gone u hu
    · intro u i hu
      by_cases h : u = t
      · subst h
        rw [Function.update_self] at hu
        exact hg i hu
      · rw [Function.update_of_ne h] at hu
        exact hw i u h (hi.lock u i hu)
    · intro u i hu
      by_cases h : u = t
      · subst h
        rw [Function.update_self] at hu
        exact hv i hu
      · rw [Function.update_of_ne h] at hu
        dsimp only
        rw [hf (.assigned i) fun e => ?_]
        · exact hi.void u i hu
        · have h1 := hi.lock u i (hbh u i hu)
          have h2 := hi.lock t i e
          rw [h1] at h2
          exact h (Option.some.inj h2)
    · intro d hb
      dsimp only
      have hb1 : b' ≠ some d.port ∨ d ≠ .assigned d.port := by
        by_contra hc
        push Not at hc
        exact hb t d.port (by rw [Function.update_self]; exact hc.1) hc.2
      have hb2 : ∀ u i, u ≠ t → b u = some i → d ≠ .assigned i := fun u i h hu => hb u i (by rw [Function.update_of_ne h]; exact hu)
      by_cases hx : g t = some d.port
      · refine hl d hx hb1 fun h => hi.cells d fun u i hu hdi => ?_
        have hgu := hi.lock u i (hbh u i hu)
        have hgt := hi.lock t _ hx
        have hdp : d.port = i := by rw [hdi]; rfl
        rw [hdp, hgu] at hgt
        have e : u = t := Option.some.inj hgt
        subst e
        rcases h with h | h
        · rw [h] at hu; cases hu
        · exact h (by rw [hdp]; exact hdi)
      · rw [hf d hx, hd d hx]
        have := hi.cells d fun u i hu hdi => by
          by_cases h : u = t
          · subst h
            exact hx (by rw [hdi]; exact hbh u i hu)
          · exact hb2 u i h hu hdi
        refine linked_congr (fun q hq => hm q fun r hr => ?_) this
        have := hi.dist.2 _ _ _ hq hr
        cases this

/-- The same if neither the fields of ports nor the lists are affected. -/
theorem advance_keep {n : Nat} {g b : Nat → Option I} {s : State (Loc I P) (Option P) I} {a : Post R I P} (hi : Tidy n g b s a) {t : Nat}
    {C : Code (Loc I P) (Option P) I} {c : Client R I P} (hC : s.threads[t]? = some C) (hc : a.clients[t]? = some c)
    {c' : Client R I P} {f' : Place R I → List P} (ha : (c', f') = (c, a.lists) ∨ act t a.lists c = some (c', f'))
    {s' : State (Loc I P) (Option P) I} {C' : Code (Loc I P) (Option P) I} {g' : Option I} (hs : s'.threads = s.threads.set t C')
    (hm : ∀ q, (∀ r, q ∉ a.lists (.var t r)) → s'.mem (.next q) = s.mem (.next q))
    (hd : ∀ d, s'.mem (.cell d) = s.mem (.cell d))
    (hw : ∀ i u, u ≠ t → s.writer i = some u → s'.writer i = some u)
    (hg : ∀ i, g' = some i → s'.writer i = some t)
    (hp : Ph n s'.mem C' c' (fun r => f' (.var t r)) g' none)
    (hf : ∀ d, f' (.cell d) = a.lists (.cell d)) (hb : b t = none) :
    a.Reach ⟨a.clients.set t c', f'⟩ ∧ Tidy n (Function.update g t g') b s' ⟨a.clients.set t c', f'⟩ := by
  have := advance hi hC hc ha hs hm (fun d _ => hd d) hw hg hp (fun d _ => hf d) (by simp) fun d _ _ h => by
    rw [hf, hd]
    refine linked_congr (fun q hq => hm q fun r hr => ?_) (h (.inl hb))
    have := hi.dist.2 _ _ _ hq hr
    cases this
  rwa [show Function.update b t none = b by rw [← hb]; exact Function.update_eq_self t b] at this

theorem set_self {α : Type} {l : List α} {t : Nat} {x : α} (h : l[t]? = some x) : l.set t x = l := by
  apply List.ext_getElem?
  intro i
  by_cases e : i = t
  · subst e
    rw [List.getElem?_set_self (by by_contra hc; rw [List.getElem?_eq_none (by omega)] at h; cases h), h]
  · rw [List.getElem?_set_ne (Ne.symm e)]

/-- Something that takes no access of memory. -/
theorem silent {n : Nat} {g b : Nat → Option I} {s : State (Loc I P) (Option P) I} {a : Post R I P} (hi : Tidy n g b s a) {t : Nat}
    {C : Code (Loc I P) (Option P) I} {c : Client R I P} (hC : s.threads[t]? = some C) (hc : a.clients[t]? = some c)
    {c' : Client R I P} {f' : Place R I → List P} (ha : act t a.lists c = some (c', f')) (hf : ∀ d, f' (.cell d) = a.lists (.cell d))
    (hg : g t = none) (hb : b t = none) (hp : Ph n s.mem C c' (fun r => f' (.var t r)) none none) :
    a.Reach ⟨a.clients.set t c', f'⟩ ∧ Tidy n g b s ⟨a.clients.set t c', f'⟩ := by
  have := advance_keep hi hC hc (.inr ha) (s' := s) (C' := C) (g' := none) (set_self hC).symm (fun _ _ => rfl) (fun _ => rfl) (fun _ _ _ h => h)
    (by simp) hp hf hb
  rwa [show Function.update g t none = g by rw [← hg]; exact Function.update_eq_self t g] at this

theorem transfer_apply (a b c : Place R I) (f : Place R I → List P) :
    transfer a b f c = if c = b then (if b = a then f a else f a ++ f b) else if c = a then [] else f c := by
  unfold transfer
  simp only [Function.update_apply]
  split_ifs <;> simp

theorem head_apply (a b c : Place R I) (p : P) (l : List P) (f : Place R I → List P) :
    transferHead a b p l f c = if c = b then (if b = a then p :: l else p :: f b) else if c = a then l else f c := by
  unfold transferHead
  simp only [Function.update_apply]
  split_ifs <;> simp

theorem head_none {l : List P} : l.head? = none ↔ l = [] := by cases l <;> simp

end Cru.Mail
