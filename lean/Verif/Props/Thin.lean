import Verif.Model.Thin
import Verif.Spec.Words
import Verif.Props.Repl
import Verif.Props.Filter

/-! # C161: filters with only a thinner -/

namespace Cru.Repl

open Infer

variable {n : Nat} {N : Type} [DecidableEq N]

/-- A filter with a thinner and perhaps an ordering, and no other functions. -/
def thinOnly (i : Nat) (r : Order) : Infer.Filter := ⟨some (.user i), ⟨nothing, noFold⟩, r⟩

/-- Each edge passes the test that's filled in, and so does each class. -/
def passAll : Fold := { noFold with map := some .trueTop, reduction := some .minimizingBop }

/-- The vertex test that's filled in. -/
def failAll : Prp := ⟨{ noFold with map := some .falseTop, reduction := some .undefinedBop }, noFold, noFold⟩

theorem thinOnly_plain (i : Nat) (s : Sig) : inferredFilter (thinOnly i ⟨none, none⟩) s = .ok ⟨some (.user i), ⟨failAll, passAll⟩, ⟨none, none⟩⟩ := rfl

theorem thinOnly_ordered (i a b : Nat) (s : Sig) :
    inferredFilter (thinOnly i ⟨some (.user a), some (.user b)⟩) s = .ok ⟨some (.user i), ⟨failAll, passAll⟩, ⟨some (.user a), some (.user b)⟩⟩ := by
  obtain ⟨vo, eo, vf, ef⟩ := s
  cases ef <;> rfl

theorem loop_passAll (u : Env) (v : Word) (es : List (Word × Word)) : loop u passAll .minimizingBop v es nonNull = .ok nonNull := by
  induction es with
  | nil => rfl
  | cons e es ih => exact ih

theorem reduced_passAll (u : Env) (v : Word) (es : List (Word × Word)) : reducedEdges u passAll v es = if es.isEmpty then .error UNDVAC else .ok nonNull := by
  rcases es with _ | ⟨a, _ | ⟨b, es⟩⟩
  · rfl
  · rfl
  · exact loop_passAll u v es

theorem passing_passAll (u : Env) (v : Word) (es : List (Word × Word)) : passing (reducedEdges u passAll v es) = !es.isEmpty := by
  rw [reduced_passAll]
  cases es <;> rfl

variable {u : Env} {o : Orders} {g : Gr N Word Word} {addr : N → Nat} {hn : 0 < n} {i : Nat} {s : Sig} {R : Gr N Word Word}

private theorem thin_lawful {r : Order} (ht : IsStrictWeak (o.lt i)) (hr : r = ⟨none, none⟩ ∨ ∃ a b, r = ⟨some (.user a), some (.user b)⟩ ∧
      IsEquality (o.equal b) ∧ HashRespects (o.hash a) (o.equal b) ∧
      ∀ x x' y y' : Word × Word, o.equal b x.1 x'.1 = true → o.equal b y.1 y'.1 = true → o.lt i x y = o.lt i x' y') :
    (filterOf u o ⟨some (.user i), ⟨failAll, passAll⟩, r⟩).Lawful := by
  refine ⟨fun q hq => ?_, fun t h v es es' hp => ?_, fun lt h => ?_, fun q lt hq h => ?_⟩
  · rcases hr with rfl | ⟨a, b, rfl, h1, h2, -⟩
    · cases hq
    · cases hq
      exact ⟨h1, h2⟩
  · cases h
    dsimp only
    rw [passing_passAll, passing_passAll, hp.isEmpty_eq]
  · cases h
    exact ht
  · rcases hr with rfl | ⟨a, b, rfl, -, -, h3⟩
    · cases hq
    · cases hq
      cases h
      exact h3

private theorem thin_fails {r : Order} (m : N) : Filter.fails (filterOf u o ⟨some (.user i), ⟨failAll, passAll⟩, r⟩) g m = true := rfl

private theorem thin_passes {r : Order} (hr : r = ⟨none, none⟩ ∨ ∃ a b, r = ⟨some (.user a), some (.user b)⟩ ∧ IsEquality (o.equal b)) {m : N} {e : Word × N}
    (he : e ∈ g.out m) : Filter.passes (filterOf u o ⟨some (.user i), ⟨failAll, passAll⟩, r⟩) g m e = true := by
  rcases hr with rfl | ⟨a, b, rfl, h⟩
  · rfl
  · change passing (reducedEdges u passAll (g.vertex m) (Filter.ends g ((g.out m).filter fun d => o.equal b e.1 d.1))) = true
    rw [passing_passAll]
    have : e ∈ (g.out m).filter fun d => o.equal b e.1 d.1 := List.mem_filter.2 ⟨he, h.refl _⟩
    cases hc : (g.out m).filter fun d => o.equal b e.1 d.1 with
    | nil => rw [hc] at this; cases this
    | cons x xs => rfl

/-- **C161.** A filter with only a thinner leaves the minimum edge to each vertex that has any, and removes all others, and then the
vertices that can't be reached. -/
theorem C161_minimum (ht : IsStrictWeak (o.lt i)) (h : FilteredBy u o (thinOnly i ⟨none, none⟩) s g addr hn 0 0 0 (.ok (some R))) :
    Filter.IsFiltered g (fun m rs => (g.out m = [] ∧ rs = []) ∨ ∃ e ∈ g.out m, rs = [e] ∧
      ∀ d ∈ g.out m, o.lt i (d.1, g.vertex d.2) (e.1, g.vertex e.2) = false) R := by
  unfold FilteredBy at h
  rw [thinOnly_plain] at h
  refine (Filter.C89_thinned (thin_lawful ht (.inl rfl)) (lt := o.lt i) rfl h).imp fun m _ rs hrs => ?_
  unfold Filter.Thinned at hrs
  rw [if_neg (by rw [thin_fails]; simp)] at hrs
  rcases hz : g.out m with _ | ⟨a, as⟩
  · exact .inl ⟨rfl, hrs.1 (by rw [hz]; simp)⟩
  · have ha : a ∈ g.out m := by rw [hz]; exact List.mem_cons_self
    obtain ⟨e, he, -, h2, h3⟩ := hrs.2 ⟨a, ha, thin_passes (.inl rfl) ha⟩
    refine .inr ⟨e, hz ▸ he, List.perm_singleton.1 h2, fun d hd => ?_⟩
    exact h3 d (hz.symm ▸ hd) (thin_passes (.inl rfl) (hz.symm ▸ hd))

/-- **C161.** With an ordering, it leaves all edges with labels equivalent to that of a minimum edge. -/
theorem C161_class {a b : Nat} (ht : IsStrictWeak (o.lt i)) (he : IsEquality (o.equal b)) (hh : HashRespects (o.hash a) (o.equal b))
    (hc : ∀ x x' y y' : Word × Word, o.equal b x.1 x'.1 = true → o.equal b y.1 y'.1 = true → o.lt i x y = o.lt i x' y')
    (h : FilteredBy u o (thinOnly i ⟨some (.user a), some (.user b)⟩) s g addr hn 0 0 0 (.ok (some R))) :
    Filter.IsFiltered g (fun m rs => (g.out m = [] ∧ rs = []) ∨ ∃ e ∈ g.out m, rs.Perm ((g.out m).filter fun d => o.equal b e.1 d.1) ∧
      ∀ d ∈ g.out m, o.lt i (d.1, g.vertex d.2) (e.1, g.vertex e.2) = false) R := by
  have hr : (⟨some (.user a), some (.user b)⟩ : Order) = ⟨none, none⟩ ∨ ∃ a' b', (⟨some (.user a), some (.user b)⟩ : Order) = ⟨some (.user a'), some (.user b')⟩ ∧ IsEquality (o.equal b') :=
    .inr ⟨a, b, rfl, he⟩
  unfold FilteredBy at h
  rw [thinOnly_ordered] at h
  refine (Filter.C89_thinned (thin_lawful ht (.inr ⟨a, b, rfl, he, hh, hc⟩)) (lt := o.lt i) rfl h).imp fun m _ rs hrs => ?_
  unfold Filter.Thinned at hrs
  rw [if_neg (by rw [thin_fails]; simp)] at hrs
  rcases hz : g.out m with _ | ⟨x, xs⟩
  · exact .inl ⟨rfl, hrs.1 (by rw [hz]; simp)⟩
  · have hx : x ∈ g.out m := by rw [hz]; exact List.mem_cons_self
    obtain ⟨e, he, -, h2, h3⟩ := hrs.2 ⟨x, hx, thin_passes hr hx⟩
    refine .inr ⟨e, hz ▸ he, hz ▸ h2, fun d hd => ?_⟩
    exact h3 d (hz.symm ▸ hd) (thin_passes hr (hz.symm ▸ hd))

/-- **C161.** So without an ordering, what's left is a single walk from the base: there's at most one word of each length, and it ends only at a
vertex that had no edges. -/
theorem C161_walk (ht : IsStrictWeak (o.lt i)) (h : FilteredBy u o (thinOnly i ⟨none, none⟩) s g addr hn 0 0 0 (.ok (some R))) :
    (∀ w w' a b, w.length = w'.length → Ends R w a → Ends R w' b → w = w' ∧ a = b) ∧
    (∀ m ∈ R.nodes, ∃ w, Ends R w m) ∧
    ∀ w m, Ends R w m → g.out m ≠ [] → ∃ l t, Ends R (w ++ [l]) t := by
  have hf := C161_minimum ht h
  have hstep : ∀ m ∈ R.nodes, ∀ e ∈ R.out m, e.2 ∈ R.nodes := fun m hm e he =>
    (hf.nodes.mem _).2 (((hf.nodes.mem _).1 hm).tail (List.mem_map.2 ⟨e, he, rfl⟩))
  have hbase : R.base ∈ R.nodes := by rw [hf.base]; exact (hf.nodes.mem _).2 .refl
  have hone : ∀ m ∈ R.nodes, ∀ e ∈ R.out m, ∀ d ∈ R.out m, e = d := by
    intro m hm e he d hd
    rcases hf.out m hm with ⟨-, h1⟩ | ⟨x, -, h1, -⟩
    · rw [h1] at he; cases he
    · rw [h1] at he hd
      rw [List.mem_singleton.1 he, List.mem_singleton.1 hd]
  have hin : ∀ c w m, Spells R.out c w m → c ∈ R.nodes → m ∈ R.nodes := by
    intro c w m hs
    induction hs with
    | nil => exact id
    | cons he _ ih => exact fun hc => ih (hstep _ hc _ he)
  have happ : ∀ c w m, Spells R.out c w m → ∀ l t, (l, t) ∈ R.out m → Spells R.out c (w ++ [l]) t := by
    intro c w m hs
    induction hs with
    | nil => exact fun l t h => .cons h (.nil _)
    | cons he _ ih => exact fun l t h => .cons he (ih l t h)
  refine ⟨?_, ?_, ?_⟩
  · intro w w' a b hl ha
    unfold Ends at ha ⊢
    generalize R.base = c at ha hbase ⊢
    induction ha generalizing w' with
    | nil =>
      intro hb
      rw [List.eq_nil_of_length_eq_zero hl.symm] at hb ⊢
      cases hb
      exact ⟨rfl, rfl⟩
    | cons he _ ih =>
      intro hb
      cases hb with
      | nil => cases hl
      | cons he' hb =>
        have := hone _ hbase _ he _ he'
        cases this
        obtain ⟨h1, h2⟩ := ih _ (Nat.succ.inj hl) (hstep _ hbase _ he) hb
        exact ⟨by rw [h1], h2⟩
  · intro m hm
    obtain hr := (hf.nodes.mem m).1 hm
    unfold Ends
    rw [hf.base]
    clear hm
    induction hr with
    | refl => exact ⟨[], .nil _⟩
    | tail _ hs ih =>
      obtain ⟨w, hw⟩ := ih
      obtain ⟨e, he, rfl⟩ := List.mem_map.1 hs
      exact ⟨w ++ [e.1], happ _ _ _ hw _ _ he⟩
  · intro w m hw hne
    have hm := hin _ _ _ hw hbase
    rcases hf.out m hm with ⟨h1, -⟩ | ⟨⟨l, t⟩, -, h1, -⟩
    · exact absurd h1 hne
    · exact ⟨l, t, happ _ _ _ hw _ _ (by rw [h1]; exact List.mem_singleton_self _)⟩

/-- **C161.** Such a call that isn't killed always returns a graph. -/
theorem C161_returns (hw : g.WF) (ht : IsStrictWeak (o.lt i)) {r : Except Int (Option (Gr N Word Word))}
    (h : FilteredBy u o (thinOnly i ⟨none, none⟩) s g addr hn 0 0 0 r) : ∃ R, r = .ok (some R) := by
  unfold FilteredBy at h
  rw [thinOnly_plain] at h
  have h1 : ∀ m ∈ g.nodes, ∀ e, ¬ Filter.ProbeError (filterOf u o ⟨some (.user i), ⟨failAll, passAll⟩, ⟨none, none⟩⟩) g m e := by
    rintro m - e ⟨h1, p, h2, h3⟩
    cases h2
    exact h1 h3.symm
  have h2 : ∀ m ∈ g.nodes, ∀ e, ¬ Filter.EdgeError (filterOf u o ⟨some (.user i), ⟨failAll, passAll⟩, ⟨none, none⟩⟩) g m e := by
    rintro m - e ⟨h1, -, h3⟩
    apply h1
    rw [← h3]
    change firstError ((Filter.ends g (g.out m)).map (seed u passAll (g.vertex m))) = 0
    generalize Filter.ends g (g.out m) = es
    induction es with
    | nil => rfl
    | cons e es ih => exact ih
  obtain ⟨R, hR, -⟩ := Filter.C89_correct hw (thin_lawful ht (.inl rfl)) (lt := o.lt i) rfl h1 h2 h
  exact ⟨R, hR⟩

theorem firstError_ok {rs : List (Except Int Word)} (h : ∀ r ∈ rs, ∃ w, r = .ok w) : firstError rs = 0 := by
  induction rs with
  | nil => rfl
  | cons r rs ih =>
    obtain ⟨w, rfl⟩ := h r List.mem_cons_self
    exact ih fun r hr => h r (List.mem_cons_of_mem _ hr)

/-- **C161.** So does one with an ordering. -/
theorem C161_class_returns {a b : Nat} (hw : g.WF) (ht : IsStrictWeak (o.lt i)) (he : IsEquality (o.equal b)) (hh : HashRespects (o.hash a) (o.equal b))
    (hc : ∀ x x' y y' : Word × Word, o.equal b x.1 x'.1 = true → o.equal b y.1 y'.1 = true → o.lt i x y = o.lt i x' y')
    {r : Except Int (Option (Gr N Word Word))} (h : FilteredBy u o (thinOnly i ⟨some (.user a), some (.user b)⟩) s g addr hn 0 0 0 r) :
    ∃ R, r = .ok (some R) := by
  unfold FilteredBy at h
  rw [thinOnly_ordered] at h
  have h1 : ∀ m ∈ g.nodes, ∀ e, ¬ Filter.ProbeError (filterOf u o ⟨some (.user i), ⟨failAll, passAll⟩, ⟨some (.user a), some (.user b)⟩⟩) g m e := by
    rintro m - e ⟨h1, p, h2, h3⟩
    cases h2
    exact h1 h3.symm
  have h2 : ∀ m ∈ g.nodes, ∀ e, ¬ Filter.EdgeError (filterOf u o ⟨some (.user i), ⟨failAll, passAll⟩, ⟨some (.user a), some (.user b)⟩⟩) g m e := by
    rintro m - e ⟨h1, -, h3⟩
    apply h1
    rw [← h3]
    refine firstError_ok fun r hr => ?_
    obtain ⟨x, hx, rfl⟩ := List.mem_map.1 hr
    refine ⟨nonNull, ?_⟩
    change reducedEdges u passAll _ _ = _
    rw [reduced_passAll, if_neg]
    intro hz
    have : x ∈ (Filter.ends g (g.out m)).filter fun y => o.equal b x.1 y.1 := List.mem_filter.2 ⟨hx, he.refl _⟩
    rw [List.isEmpty_iff] at hz
    exact absurd (hz ▸ this : x ∈ []) List.not_mem_nil
  obtain ⟨R, hR, -⟩ := Filter.C89_correct hw (thin_lawful ht (.inr ⟨a, b, rfl, he, hh, hc⟩)) (lt := o.lt i) rfl h1 h2 h
  exact ⟨R, hR⟩

/-- Labels in the order of words, of which even ones are equivalent, and so are odd ones, for the thinner 1. -/
def demoOrders : Orders where
  hash _ w := w.toNat % 2
  equal _ a b := decide (a.toNat % 2 = b.toNat % 2)
  lt k a b := if k = 0 then decide (a.1.toNat < b.1.toNat) else decide (a.1.toNat % 2 < b.1.toNat % 2)

theorem demo_weak (k : Nat) : IsStrictWeak (demoOrders.lt k) := by
  refine ⟨fun a b h => ?_, fun a b c h => ?_⟩ <;> simp only [demoOrders] at h ⊢ <;> split at h <;> simp_all <;> omega

/-- A vertex with edges to three others, which have edges to each other. -/
def tangle : Gr Nat Word Word where
  nodes := [0, 1, 2, 3]
  base := 0
  vertex m := BitVec.ofNat 64 m
  out m := if m = 0 then [(5, 1), (2, 2), (4, 3)] else if m = 1 then [(1, 2)] else if m = 2 then [(9, 1), (8, 3)] else []
  inn _ := []

theorem tangle_wf : tangle.WF := by
  refine ⟨by decide, fun m => ⟨fun hm => ?_, fun hm => ?_⟩⟩
  · have : m = 0 ∨ m = 1 ∨ m = 2 ∨ m = 3 := by simpa [tangle] using hm
    rcases this with rfl | rfl | rfl | rfl
    · exact .refl
    · exact .tail .refl (by decide)
    · exact .tail .refl (by decide)
    · exact .tail .refl (by decide)
  · induction hm with
    | refl => decide
    | tail _ hb ih =>
      rename_i a c _
      have ha : a = 0 ∨ a = 1 ∨ a = 2 ∨ a = 3 := by simpa [tangle] using ih
      rcases ha with rfl | rfl | rfl | rfl <;> simp [tangle, Gr.next] at hb ⊢ <;> omega

/-- Non-vacuity of C161: the edge labelled 2 remains at the base, and leads on to the one labelled 8. -/
example (hn : 0 < n) (addr : Nat → Nat) (s : Sig) : ∃ R, FilteredBy demoEnv demoOrders (thinOnly 0 ⟨none, none⟩) s tangle addr hn 0 0 0 (.ok (some R)) ∧
    R.out 0 = [(2, 2)] ∧ Ends R [2, 8] 3 := by
  obtain ⟨r, hr⟩ := Filter.C29_exists tangle_wf (thin_lawful (u := demoEnv) (demo_weak 0) (.inl rfl)) addr hn tangle.base
  have hr' : FilteredBy demoEnv demoOrders (thinOnly 0 ⟨none, none⟩) s tangle addr hn 0 0 0 r := hr
  obtain ⟨R, rfl⟩ := C161_returns tangle_wf (demo_weak 0) hr'
  have hf := C161_minimum (demo_weak 0) hr'
  have h0 : 0 ∈ R.nodes := (hf.nodes.mem 0).2 .refl
  have e0 : R.out 0 = [(2, 2)] := by
    rcases hf.out 0 h0 with ⟨h, -⟩ | ⟨e, he, h1, h2⟩
    · exact absurd h (by decide)
    · have he' : e = (5, 1) ∨ e = (2, 2) ∨ e = (4, 3) := by simpa [tangle] using he
      have h3 := h2 (2, 2) (by decide)
      rcases he' with rfl | rfl | rfl
      · exact absurd h3 (by decide)
      · exact h1
      · exact absurd h3 (by decide)
  have h2 : 2 ∈ R.nodes := (hf.nodes.mem 2).2 (.tail .refl (by change 2 ∈ (R.out 0).map Prod.snd; rw [e0]; decide))
  have e2 : R.out 2 = [(8, 3)] := by
    rcases hf.out 2 h2 with ⟨h, -⟩ | ⟨e, he, h1, h2⟩
    · exact absurd h (by decide)
    · have he' : e = (9, 1) ∨ e = (8, 3) := by simpa [tangle] using he
      have h3 := h2 (8, 3) (by decide)
      rcases he' with rfl | rfl
      · exact absurd h3 (by decide)
      · exact h1
  refine ⟨R, hr', e0, ?_⟩
  unfold Ends
  rw [hf.base]
  exact .cons (b := 2) (by change _ ∈ R.out 0; rw [e0]; decide) (.cons (b := 3) (by rw [e2]; decide) (.nil _))

/-- Non-vacuity of C161_class: if even labels come before odd ones, then both edges with even labels remain at the base. -/
example (hn : 0 < n) (addr : Nat → Nat) (s : Sig) :
    ∃ R, FilteredBy demoEnv demoOrders (thinOnly 1 ⟨some (.user 0), some (.user 0)⟩) s tangle addr hn 0 0 0 (.ok (some R)) ∧ (R.out 0).Perm [(2, 2), (4, 3)] := by
  have q1 : IsEquality (demoOrders.equal 0) := ⟨by simp [demoOrders], by simp [demoOrders]; omega, by simp [demoOrders]; omega⟩
  have q2 : HashRespects (demoOrders.hash 0) (demoOrders.equal 0) := by simp [HashRespects, demoOrders]
  have q3 : ∀ x x' y y' : Word × Word, demoOrders.equal 0 x.1 x'.1 = true → demoOrders.equal 0 y.1 y'.1 = true → demoOrders.lt 1 x y = demoOrders.lt 1 x' y' := by
    intro x x' y y' h1 h2; simp [demoOrders] at h1 h2 ⊢; rw [h1, h2]
  obtain ⟨r, hr⟩ := Filter.C29_exists tangle_wf (thin_lawful (u := demoEnv) (demo_weak 1) (.inr ⟨0, 0, rfl, q1, q2, q3⟩)) addr hn tangle.base
  have hr' : FilteredBy demoEnv demoOrders (thinOnly 1 ⟨some (.user 0), some (.user 0)⟩) s tangle addr hn 0 0 0 r := by
    unfold FilteredBy
    rw [thinOnly_ordered]
    exact hr
  obtain ⟨R, rfl⟩ := C161_class_returns tangle_wf (demo_weak 1) q1 q2 q3 hr'
  refine ⟨R, hr', ?_⟩
  have hf := C161_class (demo_weak 1) q1 q2 q3 hr'
  rcases hf.out 0 ((hf.nodes.mem 0).2 .refl) with ⟨h, -⟩ | ⟨e, he, h1, h2⟩
  · exact absurd h (by decide)
  · have he' : e = (5, 1) ∨ e = (2, 2) ∨ e = (4, 3) := by simpa [tangle] using he
    have h3 := h2 (2, 2) (by decide)
    rcases he' with rfl | rfl | rfl
    · exact absurd h3 (by decide)
    · exact h1.trans (.of_eq (by decide))
    · exact h1.trans (.of_eq (by decide))

end Cru.Repl
