import Verif.Spec.Wrap
import Mathlib.Data.List.Dedup
import Mathlib.Data.List.Induction
import Mathlib.Data.List.Nodup
import Mathlib.Data.List.Perm.Subperm
import Mathlib.Order.Basic
import Mathlib.Data.Multiset.Basic
import Mathlib.Data.Multiset.Count
import Mathlib.Data.Multiset.AddSub
import Mathlib.Tactic.SplitIfs

/-!
# Lemmas on the memory checker
-/

namespace Cru.Wrap

variable {F : Type} [DecidableEq F] {c : Cfg}

/-! ## Rows of the tracker -/

/-- The count of a file in a row. -/
def count (f : F) : List (F × Nat) → Nat
  | [] => 0
  | (g, k) :: t => if g = f then k else count f t

theorem bump_some (f : F) (row : List (F × Nat)) (m : Nat) (hl : row.length ≤ m) (hm : f ∉ row.map Prod.fst → row.length < m) :
    ∃ r, bump m f row = some r ∧ (∀ g, count g r = count g row + if g = f then 1 else 0) ∧
      r.map Prod.fst = if f ∈ row.map Prod.fst then row.map Prod.fst else row.map Prod.fst ++ [f] := by
  induction row generalizing m with
  | nil =>
    have : 0 < m := hm (by simp)
    refine ⟨[(f, 1)], by simp [bump, this], fun g => ?_, by simp⟩
    by_cases hg : g = f
    · subst hg; simp [count]
    · simp [count, hg, Ne.symm hg]
  | cons x t ih =>
    obtain ⟨g, k⟩ := x
    have hm0 : m ≠ 0 := by simp at hl; omega
    by_cases hg : g = f
    · subst hg
      refine ⟨(g, k + 1) :: t, by simp [bump, hm0], fun g' => ?_, by simp⟩
      by_cases h : g' = g
      · subst h; simp [count]
      · simp [count, h, Ne.symm h]
    · obtain ⟨r, h1, h2, h3⟩ := ih (m - 1) (by simp at hl; omega) (fun h => by
        have := hm (by simp [Ne.symm hg]; simpa using h)
        simp at this; omega)
      refine ⟨(g, k) :: r, by simp [bump, hm0, hg, h1], fun g' => ?_, ?_⟩
      · by_cases h : g = g'
        · subst h; simp [count, hg]
        · simp only [count, h, if_false]; exact h2 g'
      · simp only [List.map_cons, h3, List.mem_cons, Ne.symm hg, false_or]
        split_ifs <;> simp

theorem drop_none (f : F) (row : List (F × Nat)) (m : Nat) (h : count f row = 0) : drop m f row = none := by
  induction row generalizing m with
  | nil => rfl
  | cons x t ih =>
    obtain ⟨g, k⟩ := x
    by_cases hg : g = f
    · simp [count, hg] at h
      simp [drop, hg, h]
    · simp [count, hg] at h
      simp [drop, hg, ih (m - 1) h]

theorem drop_some (f : F) (row : List (F × Nat)) (m : Nat) (hl : row.length ≤ m) (h : count f row ≠ 0) :
    ∃ r, drop m f row = some r ∧ (∀ g, count g r + (if g = f then 1 else 0) = count g row) ∧ r.map Prod.fst = row.map Prod.fst := by
  induction row generalizing m with
  | nil => exact absurd rfl h
  | cons x t ih =>
    obtain ⟨g, k⟩ := x
    have hm0 : m ≠ 0 := by simp at hl; omega
    by_cases hg : g = f
    · subst hg
      simp [count] at h
      refine ⟨(g, k - 1) :: t, by simp [drop, hm0, h], fun g' => ?_, by simp⟩
      by_cases h' : g' = g
      · subst h'; simp [count]; omega
      · simp [count, h', Ne.symm h']
    · simp [count, hg] at h
      obtain ⟨r, h1, h2, h3⟩ := ih (m - 1) (by simp at hl; omega) h
      refine ⟨(g, k) :: r, by simp [drop, hm0, hg, h1], fun g' => ?_, by simp [h3]⟩
      by_cases h' : g = g'
      · subst h'; simp [count, hg]
      · simp only [count, h', if_false]; exact h2 g'

/-! ## Limits -/

theorem track_fields (f : F) (q : Nat) (s : St F) : (track c f q s).count = s.count ∧ (track c f q s).allowed = s.allowed ∧
    (track c f q s).freed = s.freed ∧ (track c f q s).doubleFree = s.doubleFree ∧ (track c f q s).tests = s.tests := by
  unfold track
  split_ifs
  · simp
  · simp
  · split <;> simp

theorem free_fields (f : F) (q : Nat) (s : St F) : (free c f q s).count = s.count ∧ (free c f q s).allowed = s.allowed ∧ (free c f q s).tests = s.tests := by
  unfold free
  split_ifs
  · simp
  · simp
  · split <;> simp
  · split <;> simp

/-- What the counters are in terms of a history. -/
theorem hist_counts {s : St F} {h : List (Op F × Res)} (hs : Hist c s h) :
    s.count = granted h ∧ s.allowed = limitOf h ∧ (c.soft = false → ∀ k, s.allowed = some k → s.count ≤ k) := by
  induction hs with
  | init => exact ⟨rfl, rfl, fun _ k hk => by cases hk⟩
  | @call s h o hs ih =>
    obtain ⟨h1, h2, h3⟩ := ih
    have hg : ∀ r : Res, granted (h ++ [(o, r)]) = granted h + (attempt o && (r.val != 0)).toNat := by
      intro r
      simp only [granted, List.countP_append, List.countP_cons, List.countP_nil]
      cases attempt o && (r.val != 0) <;> rfl
    have hl : ∀ r : Res, limitOf (h ++ [(o, r)]) = match o with
        | .limit k => if r.err = 0 then some k else limitOf h
        | _ => limitOf h := by
      intro r
      simp only [limitOf, List.foldl_append, List.foldl_cons, List.foldl_nil]
      cases o <;> rfl
    rw [hg, hl]
    cases o with
    | malloc f q lib =>
      simp only [step, malloc, attempt, Bool.true_and]
      split_ifs with e1 e2 e3
      · simp only [track_fields]
        refine ⟨by rw [h1]; cases lib <;> rfl, h2, fun h => by rw [e1.1] at h; cases h⟩
      · exact ⟨by simp [h1], h2, h3⟩
      · simp only [track_fields]
        refine ⟨by rw [h1]; cases lib <;> rfl, h2, fun _ k hk => ?_⟩
        have := e3.1
        simp only [under, hk, decide_eq_true_eq] at this
        cases lib <;> simp <;> omega
      · exact ⟨by simp [h1], h2, h3⟩
    | free f q => simp only [step, attempt, free_fields]; exact ⟨by simp [h1], h2, h3⟩
    | simulate =>
      simp only [step, simulate, attempt, Bool.true_and]
      split_ifs with e1 e2 e3 e4 e5
      · exact ⟨by simp [h1], h2, h3⟩
      · exact ⟨by simp [h1], h2, h3⟩
      · exact ⟨by simp [h1], h2, fun h => by rw [e3.1] at h; cases h⟩
      · exact ⟨by simp [h1], h2, h3⟩
      · refine ⟨by simp [h1], h2, fun _ k hk => ?_⟩
        dsimp only at hk
        simp only [under, hk, decide_eq_true_eq] at e5
        exact e5
      · exact ⟨by simp [h1], h2, h3⟩
    | limit k =>
      simp only [step, attempt, Bool.false_and]
      split_ifs with e1 e2 e3
      · cases e2
      · exact ⟨by simp [h1], h2, h3⟩
      · refine ⟨by simp [h1], rfl, fun _ k' hk => ?_⟩
        cases hk; dsimp only; omega
      · exact absurd rfl e3
    | performed => simp only [step, attempt, Bool.false_and]; exact ⟨by simp [h1], h2, h3⟩
    | allClear r => simp only [step, attempt, Bool.false_and]; exact ⟨by simp [h1], h2, h3⟩

/-- With a soft limit, there's been a refusal or two according to the counter. -/
theorem hist_soft {s : St F} {h : List (Op F × Res)} (hsoft : c.soft = true) (ha : ∀ x ∈ h, ample x.1) (hs : Hist c s h) :
    s.tests = h.countP refusal ∧ s.tests ≤ 1 := by
  induction hs with
  | init => exact ⟨rfl, Nat.zero_le _⟩
  | @call s h o hs ih =>
    obtain ⟨h1, h2⟩ := ih fun x hx => ha x (by simp [hx])
    have ho : ample o := ha _ (List.mem_append_right _ (List.mem_singleton.2 rfl))
    simp only [List.countP_append, List.countP_cons, List.countP_nil, Nat.zero_add]
    cases o with
    | malloc f q lib =>
      obtain rfl : lib = true := ho
      simp only [step, malloc, hsoft, Bool.toNat_true, Nat.add_pos_right _ Nat.one_pos, Bool.true_eq_false, false_and, if_false, true_and, and_true]
      split_ifs with e1 e2 e3
      all_goals simp_all [track_fields, refusal]
    | free f q => simp only [step, free_fields, refusal]; exact ⟨by simp [h1], h2⟩
    | simulate =>
      simp only [step, simulate, hsoft, true_and, Bool.true_eq_false, false_and, if_false]
      split_ifs
      all_goals simp_all [refusal, noMem, devDbf]
    | limit k =>
      have : ∀ r : Res, refusal (Op.limit (F := F) k, r) = false := fun _ => rfl
      simp only [step, this]
      split_ifs <;> simp_all
    | performed => simp only [step, refusal]; exact ⟨by simp [h1], h2⟩
    | allClear r => simp only [step, refusal]; exact ⟨by simp [h1], h2⟩

/-! ## The tracker -/

theorem Tame.init {h : List (Op F × Res)} {x : Op F × Res} (ht : Tame c (h ++ [x])) : Tame c h ∧ sized x.1 ∧ ample x.1 := by
  refine ⟨⟨fun y hy => ht.1 y (by simp [hy]), fun q => Nat.le_trans ?_ (ht.2 q)⟩, ht.1 x (by simp)⟩
  refine List.Subperm.length_le (List.subperm_of_subset (List.nodup_dedup _) ?_)
  intro f hf
  rw [List.mem_dedup] at hf ⊢
  unfold files at hf ⊢
  rw [List.filterMap_append]
  exact List.mem_append_left _ hf

/-- A row of the tracker is what it should be. -/
structure Row (q : Nat) (h : List (Op F × Res)) (row : List (F × Nat)) : Prop where
  nodup : (row.map Prod.fst).Nodup
  files : ∀ f ∈ row.map Prod.fst, f ∈ files q h
  count : ∀ f, count f row + h.countP (releases f q) = h.countP (obtains f q)

theorem Row.room {q : Nat} {h : List (Op F × Res)} {row : List (F × Nat)} (hr : Row q h row) (ht : Tame c h) : row.length ≤ c.mallox := by
  refine Nat.le_trans ?_ (ht.2 q)
  rw [← List.length_map (f := Prod.fst)]
  refine List.Subperm.length_le (List.subperm_of_subset hr.nodup ?_)
  intro f hf
  exact List.mem_dedup.2 (hr.files f hf)

/-- While no double free is detected, there hasn't been any and the tables are right; afterwards there has been. -/
structure Right (s : St F) (h : List (Op F × Res)) : Prop where
  balance : s.doubleFree = false → s.freed + obtained h = released h + granted h
  fair : s.doubleFree = false → ¬ Excess h
  rows : s.doubleFree = false → ∀ q, 0 < q → q ≤ 256 → Row q h (s.tracker (q - 1))
  excess : s.doubleFree = true → Excess h

theorem Excess.mono {h : List (Op F × Res)} {x : Op F × Res} (he : Excess h) : Excess (h ++ [x]) := by
  obtain ⟨h₁, f, q, r, h₂, rfl, hle⟩ := he
  exact ⟨h₁, f, q, r, h₂ ++ [x], by simp, hle⟩

theorem excess_snoc {h : List (Op F × Res)} {o : Op F} {r : Res} (he : Excess (h ++ [(o, r)])) :
    Excess h ∨ ∃ f q, o = .free f q ∧ h.countP (obtains f q) ≤ h.countP (releases f q) := by
  obtain ⟨h₁, f, q, r', h₂, heq, hle⟩ := he
  rcases List.eq_nil_or_concat h₂ with rfl | ⟨h₃, x, rfl⟩
  · obtain ⟨rfl, hx⟩ := List.append_inj' heq rfl
    simp only [List.cons.injEq, Prod.mk.injEq, and_true] at hx
    exact .inr ⟨f, q, hx.1, hle⟩
  · left
    rw [show h₁ ++ (Op.free f q, r') :: (h₃.concat x) = (h₁ ++ (Op.free f q, r') :: h₃) ++ [x] by simp] at heq
    obtain ⟨rfl, _⟩ := List.append_inj' heq rfl
    exact ⟨h₁, f, q, r', h₃, rfl, hle⟩

/-- Calls that neither obtain nor release anything. -/
theorem Right.idle {s s' : St F} {h : List (Op F × Res)} (hr : Right s h) (o : Op F) (r : Res) (hd : s'.doubleFree = s.doubleFree)
    (ht : s'.tracker = s.tracker) (hf : s'.freed = s.freed + (attempt o && (r.val != 0)).toNat)
    (ho : ∀ f q, obtains f q (o, r) = false) (hrel : ∀ f q, o ≠ .free f q) : Right s' (h ++ [(o, r)]) := by
  have hob : obtained (h ++ [(o, r)]) = obtained h := by
    simp only [obtained, List.countP_append, List.countP_cons, List.countP_nil]
    cases o with
    | malloc f q lib => have := ho f q; simp [obtains] at this; simp [this]
    | _ => simp
  have hre : released (h ++ [(o, r)]) = released h := by
    simp only [released, List.countP_append, List.countP_cons, List.countP_nil]
    cases o with
    | free f q => exact absurd rfl (hrel f q)
    | _ => simp
  have hg : granted (h ++ [(o, r)]) = granted h + (attempt o && (r.val != 0)).toNat := by
    simp only [granted, List.countP_append, List.countP_cons, List.countP_nil]
    cases attempt o && (r.val != 0) <;> rfl
  refine ⟨fun hz => ?_, fun hz he => ?_, fun hz q h0 h1 => ?_, fun hz => (hr.excess (hd ▸ hz)).mono⟩
  · rw [hob, hre, hg, hf]; have := hr.balance (hd ▸ hz); omega
  · rcases excess_snoc he with h1 | ⟨f, q, h1, _⟩
    · exact hr.fair (hd ▸ hz) h1
    · exact hrel f q h1
  · rw [ht]
    have h2 := hr.rows (hd ▸ hz) q h0 h1
    refine ⟨h2.nodup, fun f hf => ?_, fun f => ?_⟩
    · unfold files; rw [List.filterMap_append]; exact List.mem_append_left _ (h2.files f hf)
    · rw [List.countP_append, List.countP_append, List.countP_singleton, List.countP_singleton, ho]
      have : releases f q (o, r) = false := by
        cases o with
        | free f' q' => exact absurd rfl (hrel f' q')
        | _ => rfl
      rw [this]
      exact h2.count f

/-- An allocation. -/
theorem Right.got {s s' : St F} {h : List (Op F × Res)} (hr : Right s h) (f : F) (q : Nat) (r : Res) (hv : r.val ≠ 0)
    (ht : Tame c (h ++ [(.malloc f q true, r)])) (hs : s'.tracker = s.tracker ∧ s'.freed = s.freed ∧ s'.doubleFree = s.doubleFree) :
    Right (track c f q s') (h ++ [(.malloc f q true, r)]) := by
  obtain ⟨htr, hfr, hdf⟩ := hs
  obtain ⟨ht', hsz, -⟩ := ht.init
  have hsz : 0 < q ∧ q ≤ 256 := hsz
  have hob : obtained (h ++ [(.malloc f q true, r)]) = obtained h + 1 := by simp [obtained, List.countP_append, hv]
  have hre : released (h ++ [(.malloc f q true, r)]) = released h := by simp [released, List.countP_append]
  have hg : granted (h ++ [(.malloc f q true, r)]) = granted h + 1 := by simp [granted, List.countP_append, attempt, hv]
  have hd := (track_fields (c := c) f q s').2.2.2.1
  have hfree := (track_fields (c := c) f q s').2.2.1
  refine ⟨fun hz => ?_, fun hz he => ?_, fun hz q' h0 h1 => ?_, fun hz => (hr.excess (by rw [← hdf, ← hd]; exact hz)).mono⟩
  · rw [hob, hre, hg, hfree, hfr]; have := hr.balance (by rw [← hdf, ← hd]; exact hz); omega
  · rcases excess_snoc he with h1 | ⟨_, _, h1, _⟩
    · exact hr.fair (by rw [← hdf, ← hd]; exact hz) h1
    · cases h1
  · rw [hd, hdf] at hz
    have h2 := hr.rows hz q' h0 h1
    have hfiles : files q' (h ++ [(.malloc f q true, r)]) = files q' h ++ if q = q' then [f] else [] := by
      unfold files; rw [List.filterMap_append]; by_cases hq : q = q' <;> simp [hq]
    have hcR : ∀ g, (h ++ [(Op.malloc f q true, r)]).countP (releases g q') = h.countP (releases g q') := by
      intro g; simp [List.countP_append, releases]
    have hcO : ∀ g, (h ++ [(Op.malloc f q true, r)]).countP (obtains g q') = h.countP (obtains g q') + if q = q' ∧ g = f then 1 else 0 := by
      intro g
      by_cases hq : q = q'
      · by_cases hgf : g = f
        · simp [List.countP_append, obtains, hq, hgf, hv]
        · simp [List.countP_append, obtains, hq, hgf, Ne.symm hgf]
      · simp [List.countP_append, obtains, hq]
    have hne : ¬ sizeLimit ≤ q - 1 := by simp [sizeLimit]; omega
    by_cases hq : q = q'
    · subst hq
      have hroom : ∀ (h' : f ∉ (s.tracker (q - 1)).map Prod.fst), (s.tracker (q - 1)).length < c.mallox := by
        intro h'
        have h3 : (f :: (s.tracker (q - 1)).map Prod.fst).Nodup := List.nodup_cons.2 ⟨h', h2.nodup⟩
        have h4 := List.Subperm.length_le (List.subperm_of_subset h3 (l₂ := (files q (h ++ [(.malloc f q true, r)])).dedup) (by
          intro g hg
          rw [List.mem_dedup, hfiles]
          rcases List.mem_cons.1 hg with rfl | hg
          · simp
          · exact List.mem_append_left _ (h2.files g hg)))
        simp only [List.length_cons, List.length_map] at h4
        exact Nat.lt_of_lt_of_le (Nat.lt_of_succ_le h4) (ht.2 q)
      obtain ⟨row, hb, hc, hk⟩ := bump_some f (s.tracker (q - 1)) c.mallox (h2.room ht') hroom
      have htrk : (track c f q s').tracker (q - 1) = row := by
        simp only [track, Nat.pos_iff_ne_zero.1 hsz.1, if_false, hne, htr, hb, Function.update_self]
      rw [htrk]
      refine ⟨?_, fun g hg => ?_, fun g => ?_⟩
      · rw [hk]
        split_ifs with h'
        · exact h2.nodup
        · exact List.nodup_append.2 ⟨h2.nodup, by simp, by rintro a ha b hb rfl; exact h' ((List.mem_singleton.1 hb) ▸ ha)⟩
      · rw [hfiles]
        rw [hk] at hg
        split_ifs at hg with h'
        · exact List.mem_append_left _ (h2.files g hg)
        · rcases List.mem_append.1 hg with hg | hg
          · exact List.mem_append_left _ (h2.files g hg)
          · simp at hg; simp [hg]
      · rw [hcR, hcO, hc]
        have := h2.count g
        simp only [true_and]
        omega
    · have htrk : (track c f q s').tracker (q' - 1) = s.tracker (q' - 1) := by
        simp only [track, Nat.pos_iff_ne_zero.1 hsz.1, if_false, hne]
        split
        · exact congrFun htr _
        · rw [← htr]; exact Function.update_of_ne (by omega) _ _
      rw [htrk]
      refine ⟨h2.nodup, fun g hg => by rw [hfiles]; exact List.mem_append_left _ (h2.files g hg), fun g => ?_⟩
      rw [hcR, hcO]
      simp only [hq, false_and, if_false]
      exact h2.count g

/-- A deallocation. -/
theorem Right.gave {s : St F} {h : List (Op F × Res)} (hr : Right s h) (f : F) (q : Nat) (r : Res) (ht : Tame c (h ++ [(.free f q, r)])) :
    Right (free c f q s) (h ++ [(.free f q, r)]) := by
  obtain ⟨ht', hsz, -⟩ := ht.init
  have hsz : 0 < q ∧ q ≤ 256 := hsz
  have hob : obtained (h ++ [(.free f q, r)]) = obtained h := by simp [obtained, List.countP_append]
  have hre : released (h ++ [(.free f q, r)]) = released h + 1 := by simp [released, List.countP_append]
  have hg : granted (h ++ [(.free f q, r)]) = granted h := by simp [granted, List.countP_append, attempt]
  have hne : ¬ sizeLimit ≤ q - 1 := by simp [sizeLimit]; omega
  have hq0 := Nat.pos_iff_ne_zero.1 hsz.1
  by_cases hz : s.doubleFree = true
  · have : (free c f q s).doubleFree = true := by
      simp only [free, hq0, if_false, hne]
      split
      · exact hz
      · split_ifs <;> rfl
    have hx := hr.excess hz
    exact ⟨fun h => by rw [this] at h; (cases h), fun h => by rw [this] at h; (cases h), fun h => by rw [this] at h; (cases h), fun _ => hx.mono⟩
  · have hz : s.doubleFree = false := by simpa using hz
    have h2 := hr.rows hz q hsz.1 hsz.2
    have hcnt := h2.count f
    by_cases h0 : count f (s.tracker (q - 1)) = 0
    · have : (free c f q s).doubleFree = true := by
        simp only [free, hq0, if_false, hne, drop_none f _ c.mallox h0]
        split_ifs <;> rfl
      have hx : Excess (h ++ [(Op.free f q, r)]) := ⟨h, f, q, r, [], by simp, by omega⟩
      exact ⟨fun h => by rw [this] at h; (cases h), fun h => by rw [this] at h; (cases h), fun h => by rw [this] at h; (cases h), fun _ => hx⟩
    · obtain ⟨row, hb, hc, hk⟩ := drop_some f (s.tracker (q - 1)) c.mallox (h2.room ht') h0
      have hfree : free c f q s = { s with freed := s.freed + 1, tracker := Function.update s.tracker (q - 1) row } := by
        simp only [free, hq0, if_false, hne, hb]
      rw [hfree]
      refine ⟨fun _ => ?_, fun _ he => ?_, fun _ q' h0 h1 => ?_, fun h => by dsimp only at h; rw [hz] at h; cases h⟩
      · rw [hob, hre, hg]; have := hr.balance hz; dsimp only; omega
      · rcases excess_snoc he with h1 | ⟨_, _, h1, h3⟩
        · exact hr.fair hz h1
        · cases h1; omega
      · have h3 := hr.rows hz q' h0 h1
        have hfiles : files q' (h ++ [(.free f q, r)]) = files q' h := by simp [files, List.filterMap_append]
        have hcO : ∀ g, (h ++ [(Op.free f q, r)]).countP (obtains g q') = h.countP (obtains g q') := by
          intro g; simp [List.countP_append, obtains]
        have hcR : ∀ g, (h ++ [(Op.free f q, r)]).countP (releases g q') = h.countP (releases g q') + if q = q' ∧ g = f then 1 else 0 := by
          intro g
          by_cases hq : q = q'
          · by_cases hgf : g = f
            · simp [List.countP_append, releases, hq, hgf]
            · simp [List.countP_append, releases, hq, hgf, Ne.symm hgf]
          · simp [List.countP_append, releases, hq]
        by_cases hq : q = q'
        · subst hq
          simp only [Function.update_self]
          refine ⟨by rw [hk]; exact h3.nodup, fun g hg => by rw [hfiles]; rw [hk] at hg; exact h3.files g hg, fun g => ?_⟩
          rw [hcO, hcR]
          have h4 := hc g
          have h5 := h3.count g
          simp only [true_and]
          omega
        · have : (Function.update s.tracker (q - 1) row) (q' - 1) = s.tracker (q' - 1) := Function.update_of_ne (by omega) _ _
          simp only [this]
          refine ⟨h3.nodup, fun g hg => by rw [hfiles]; exact h3.files g hg, fun g => ?_⟩
          rw [hcO, hcR]
          simp only [hq, false_and, if_false]
          exact h3.count g

theorem hist_right {s : St F} {h : List (Op F × Res)} (hs : Hist c s h) (ht : Tame c h) : Right s h := by
  induction hs with
  | init =>
    refine ⟨fun _ => rfl, fun _ he => ?_, fun _ q _ _ => ⟨List.nodup_nil, fun f hf => (by cases hf), fun f => rfl⟩, fun h => by cases h⟩
    obtain ⟨h₁, _, _, _, _, h1, _⟩ := he
    simp at h1
  | @call s h o hs ih =>
    have hr := ih ht.init.1
    cases o with
    | malloc f q lib =>
      obtain rfl : lib = true := ht.init.2.2
      have hn : ∀ (s' : St F), s'.doubleFree = s.doubleFree → s'.tracker = s.tracker → s'.freed = s.freed → Right s' (h ++ [(.malloc f q true, ⟨0, 0⟩)]) :=
        fun s' h1 h2 h3 => hr.idle _ _ h1 h2 (by simp [h3, attempt]) (fun _ _ => by simp [obtains]) (fun _ _ => by simp)
      simp only [step, malloc] at ht ⊢
      split_ifs at ht ⊢
      · exact hr.got f q _ (by simp) ht ⟨rfl, rfl, rfl⟩
      · exact hn _ rfl rfl rfl
      · exact hr.got f q _ (by simp) ht ⟨rfl, rfl, rfl⟩
      · exact hn _ rfl rfl rfl
    | free f q => exact hr.gave f q _ ht
    | simulate =>
      simp only [step, simulate]
      split_ifs <;> exact hr.idle _ _ rfl rfl (by simp [step, attempt]) (fun _ _ => by simp [obtains]) (fun _ _ => by simp)
    | limit k =>
      simp only [step]
      split_ifs <;> exact hr.idle _ _ rfl rfl (by simp [step, attempt]) (fun _ _ => by simp [obtains]) (fun _ _ => by simp)
    | performed => exact hr.idle _ _ rfl rfl (by simp [step, attempt]) (fun _ _ => by simp [obtains]) (fun _ _ => by simp)
    | allClear r => exact hr.idle _ _ rfl rfl (by simp [step, attempt]) (fun _ _ => by simp [obtains]) (fun _ _ => by simp)

/-- What's in use, if nothing has been freed in excess. -/
theorem live (h : List (Op F × Res)) (hx : ¬ Excess h) : ∃ M : Multiset (F × Nat), M.card + released h = obtained h ∧
    ∀ f q, M.count (f, q) + h.countP (releases f q) = h.countP (obtains f q) := by
  induction h using List.reverseRecOn with
  | nil => exact ⟨0, rfl, fun _ _ => rfl⟩
  | append_singleton h x ih =>
    obtain ⟨M, h1, h2⟩ := ih fun he => hx he.mono
    obtain ⟨o, r⟩ := x
    have hob : obtained (h ++ [(o, r)]) = obtained h + obtained [(o, r)] := by simp only [obtained, List.countP_append]
    have hre : released (h ++ [(o, r)]) = released h + released [(o, r)] := by simp only [released, List.countP_append]
    simp only [hob, hre, List.countP_append]
    cases o with
    | malloc f q lib =>
      by_cases hv : r.val = 0
      · exact ⟨M, by simpa [released, obtained, hv] using h1, fun f' q' => by simpa [obtains, releases, hv] using h2 f' q'⟩
      · refine ⟨(f, q) ::ₘ M, by simp [released, obtained, hv] at h1 ⊢; omega, fun f' q' => ?_⟩
        have := h2 f' q'
        by_cases he : f = f' ∧ q = q'
        · obtain ⟨rfl, rfl⟩ := he
          simp [obtains, releases, hv]; omega
        · have hne : (f', q') ≠ (f, q) := by rintro ⟨⟩; exact he ⟨rfl, rfl⟩
          rw [Multiset.count_cons_of_ne hne]
          have : obtains f' q' (.malloc f q lib, r) = false := by
            simp only [obtains, Bool.and_eq_false_imp, Bool.and_eq_true, decide_eq_true_eq]
            exact fun h => absurd h he
          simpa [this, releases] using h2 f' q'
    | free f q =>
      have hm : (f, q) ∈ M := by
        rw [← Multiset.count_pos]
        have := h2 f q
        by_contra h0
        exact hx ⟨h, f, q, r, [], rfl, by omega⟩
      refine ⟨M.erase (f, q), ?_, fun f' q' => ?_⟩
      · have := Multiset.card_erase_add_one hm
        simp [released, obtained] at h1 ⊢; omega
      · have := h2 f' q'
        by_cases he : f = f' ∧ q = q'
        · obtain ⟨rfl, rfl⟩ := he
          have hp := Multiset.count_pos.2 hm
          rw [Multiset.count_erase_self]
          simp [obtains, releases]; omega
        · have hne : (f', q') ≠ (f, q) := by rintro ⟨⟩; exact he ⟨rfl, rfl⟩
          rw [Multiset.count_erase_of_ne hne]
          have h3 : releases f' q' (.free f q, r) = false := by
            simp only [releases, Bool.and_eq_false_imp, decide_eq_true_eq]
            intro h4; simp only [decide_eq_false_iff_not]; exact fun h5 => he ⟨h4, h5⟩
          simpa [h3, obtains] using this
    | _ => exact ⟨M, by simpa [released, obtained] using h1, fun f' q' => by simpa [obtains, releases] using h2 f' q'⟩

end Cru.Wrap
