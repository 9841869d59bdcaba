import Verif.Model.Errs
import Mathlib.Tactic.Linarith

/-!
# C41, C42, C46 and C47: errors
-/

namespace Cru.Errs

/-! ## C41 -/

theorem raise_of_ne {err : Int} (h : err ≠ 0) (e : Int) : raise err e = err := by simp [raise, h]

/-- C41.  Once an error code is set, no sequence of operations changes it or calls another guarded user function. -/
theorem C41_first_error_sticks (w : Worker) (h : w.err ≠ 0) (l : List Op) :
    (ops w l).err = w.err ∧ (ops w l).called = w.called := by
  induction l generalizing w with
  | nil => exact ⟨rfl, rfl⟩
  | cons o l ih =>
    have hs : (op w o).1.err = w.err ∧ (op w o).1.called = w.called := by
      cases o <;> simp [op, h, raise]
    obtain ⟨h1, h2⟩ := ih (op w o).1 (by rw [hs.1]; exact h)
    exact ⟨by rw [← hs.1, ← h1]; rfl, by rw [← hs.2, ← h2]; rfl⟩

/-- The code an operation raises if no error has been raised before it. -/
def Op.code : Op → Int
  | .raise e => e
  | .applied _ ux => ux
  | .passed _ _ ux => ux
  | .failed _ _ ux => ux
  | .apply _ ux => ux

/-- The guarded user function an operation calls. -/
def Op.guarded : Op → List Nat
  | .applied f _ => [f]
  | .passed f _ _ => [f]
  | .failed f _ _ => [f]
  | _ => []

/-- C41.  Whatever a worker does, its error is the first non-zero code raised, and the guarded functions called are those
of the operations up to that one. -/
theorem C41_first_error_wins (l : List Op) :
    (ops ⟨0, [], []⟩ l).err = ((l.map Op.code).find? (· ≠ 0)).getD 0 ∧
    (ops ⟨0, [], []⟩ l).called =
      (l.takeWhile (fun o => o.code = 0)).flatMap Op.guarded ++
        ((l.dropWhile (fun o => o.code = 0)).head?.map Op.guarded).getD [] := by
  have key : ∀ (l : List Op) (c d : List Nat),
      (ops ⟨0, c, d⟩ l).err = ((l.map Op.code).find? (· ≠ 0)).getD 0 ∧
      (ops ⟨0, c, d⟩ l).called =
        c ++ ((l.takeWhile (fun o => o.code = 0)).flatMap Op.guarded ++
          ((l.dropWhile (fun o => o.code = 0)).head?.map Op.guarded).getD []) := by
    intro l
    induction l with
    | nil => intro c d; simp [ops]
    | cons o l ih =>
      intro c d
      have hs : ∃ d', (op ⟨0, c, d⟩ o).1 = ⟨o.code, c ++ o.guarded, d'⟩ := by
        cases o <;> simp [op, raise, Op.code, Op.guarded]
      obtain ⟨d', hs⟩ := hs
      have hl : ops ⟨0, c, d⟩ (o :: l) = ops ⟨o.code, c ++ o.guarded, d'⟩ l := by
        simp [ops, hs]
      rw [hl]
      by_cases h0 : o.code = 0
      · rw [h0]
        obtain ⟨h1, h2⟩ := ih (c ++ o.guarded) d'
        refine ⟨by rw [h1]; simp [h0], by rw [h2]; simp [h0, List.append_assoc]⟩
      · obtain ⟨h1, h2⟩ := C41_first_error_sticks ⟨o.code, c ++ o.guarded, d'⟩ h0 l
        refine ⟨by rw [h1]; simp [h0], by rw [h2]; simp [h0]⟩
  simpa using key l [] []

/-- Destructors are called regardless of errors, so storage is reclaimed after a failure. -/
theorem C41_destructors_always_called (w : Worker) (l : List Op) :
    (ops w l).destroyed = w.destroyed ++ l.flatMap (fun | .apply f _ => [f] | _ => []) := by
  induction l generalizing w with
  | nil => simp [ops]
  | cons o l ih =>
    have : ops w (o :: l) = ops (op w o).1 l := rfl
    rw [this, ih]
    cases o <;> simp [op] <;> (try split <;> simp)

/-- A worker whose second callback fails: the third is not called, the destructor is. -/
example : ops ⟨0, [], []⟩ [.applied 1 0, .passed 2 true 7, .applied 3 0, .apply 4 9, .raise (-5)] =
    ⟨7, [1, 2], [4]⟩ := rfl

/-! ## C42 -/

theorem runners_status (errs : List Int) : ∀ j : Job,
    (runners j errs).roStatus = (if j.roStatus ≠ 0 then j.roStatus else (errs.find? (· ≠ 0)).getD 0) := by
  induction errs with
  | nil => intro j; by_cases h : j.roStatus = 0 <;> simp [runners, h]
  | cons e errs ih =>
    intro j
    have : runners j (e :: errs) = runners (runnerExit j e) errs := rfl
    rw [this, ih]
    by_cases he : e = 0 <;> by_cases hj : j.roStatus = 0 <;> by_cases hej : j.roStatus = e <;>
      simp_all [runnerExit, errorConsumed, Ne.symm]

/-- C42.  After all workers exit, in any order, the router status is the one recorded before, if any, and otherwise the
first non-zero error: it is non-zero if any worker had an error, and never overwritten. -/
theorem C42_router_status (j : Job) (errs : List Int) :
    (runners j errs).roStatus = (if j.roStatus ≠ 0 then j.roStatus else (errs.find? (· ≠ 0)).getD 0) :=
  runners_status errs j

/-- C42.  Every worker error is either the router status or reported globally. -/
theorem C42_no_error_lost (j : Job) (errs : List Int) (e : Int) (he : e ∈ errs) (h0 : e ≠ 0) :
    e = (runners j errs).roStatus ∨ e ∈ (runners j errs).globally := by
  have mono : ∀ (errs : List Int) (j : Job) (x : Int), x ∈ j.globally → x ∈ (runners j errs).globally := by
    intro errs
    induction errs with
    | nil => intro j x hx; exact hx
    | cons e errs ih =>
      intro j x hx
      refine ih (runnerExit j e) x ?_
      simp only [runnerExit]
      generalize hq : (if (errorConsumed j.roStatus e).2 = true then (0 : Int) else e) = q
      by_cases hz : q = 0
      · rw [if_pos hz]; exact hx
      · rw [if_neg hz]; exact List.mem_append_left _ hx
  induction errs generalizing j with
  | nil => cases he
  | cons a errs ih =>
    have : runners j (a :: errs) = runners (runnerExit j a) errs := rfl
    rcases List.mem_cons.1 he with rfl | he
    · by_cases hj : j.roStatus = 0
      · left
        rw [this, runners_status]
        simp [runnerExit, errorConsumed, h0, hj]
        by_cases h : (0 : Int) = e <;> simp_all
      · by_cases hje : j.roStatus = e
        · left
          rw [this, runners_status]
          simp [runnerExit, errorConsumed, h0, hje]
        · right
          rw [this]
          refine mono _ _ _ ?_
          simp [runnerExit, errorConsumed, h0, hj, hje]
    · rw [this]; exact ih (runnerExit j a) he

/-- C42.  The error an operation ends with is non-zero if any worker ends with an error, both when workers return their
status and when they return something else. -/
theorem C42_reported (err : Int) (statuses order : List Int) (hp : order.Perm statuses) :
    (∃ s ∈ statuses, s ≠ 0) →
      launchedErr err (runners ⟨0, []⟩ order).roStatus statuses ≠ 0 ∧
      countLaunchedErr err (runners ⟨0, []⟩ order).roStatus ≠ 0 := by
  rintro ⟨s, hs, h0⟩
  have hr : (runners ⟨0, []⟩ order).roStatus ≠ 0 := by
    rw [runners_status]
    simp only [ne_eq, not_true_eq_false, if_false]
    have hmem : s ∈ order := hp.mem_iff.2 hs
    cases hf : order.find? (· ≠ 0) with
    | none =>
      have := List.find?_eq_none.1 hf s hmem
      simp [h0] at this
    | some x =>
      have := List.find?_some hf
      simpa using this
  have h1 : raise err (runners ⟨0, []⟩ order).roStatus ≠ 0 := by
    unfold raise; split <;> assumption
  exact ⟨by unfold launchedErr; rw [raise_of_ne h1]; exact h1, h1⟩

theorem foldl_raise (l : List Int) : ∀ e : Int, l.foldl raise e = if e ≠ 0 then e else (l.find? (· ≠ 0)).getD 0 := by
  induction l with
  | nil => intro e; by_cases h : e = 0 <;> simp [h]
  | cons a l ih =>
    intro e
    simp only [List.foldl_cons, ih]
    by_cases he : e = 0 <;> by_cases ha : a = 0 <;> simp [raise, he, ha]

/-- C42.  The same for workers that return a container with a status in it: an error left in the container or in the worker's
error code is reported, whichever workers manage to allocate a container for it, and in whichever order they exit. -/
theorem C42_reported_containers (err : Int) (xs : List (Bool × End)) (order : List (Bool × End)) (hp : order.Perm xs)
    (h : ∃ x ∈ xs, x.2.err ≠ 0 ∨ ∃ s, x.2.container = some s ∧ s ≠ 0) :
    containerLaunchedErr err
      (runners ⟨0, []⟩ (order.map fun x => (containerRunner x.1 x.2).err)).roStatus
      (xs.map fun x => containerRunner x.1 x.2) ≠ 0 := by
  have hfind : ∀ (l : List Int) (e : Int), e ∈ l → e ≠ 0 → (l.find? (· ≠ 0)).getD 0 ≠ 0 := by
    intro l e he h0
    cases hf : l.find? (· ≠ 0) with
    | none => have := List.find?_eq_none.1 hf e he; simp [h0] at this
    | some x => simpa using List.find?_some hf
  obtain ⟨x, hx, hx'⟩ := h
  have hcase : (containerRunner x.1 x.2).err ≠ 0 ∨ (containerRunner x.1 x.2).container.getD 0 ≠ 0 := by
    obtain ⟨al, c, e⟩ := x
    cases c <;> cases al <;> by_cases he : e = 0 <;> simp_all [containerRunner, raise]
  have hnz : ∀ a b c : Int, b ≠ 0 ∨ c ≠ 0 → raise (raise a b) c ≠ 0 := by
    intro a b c hbc
    unfold raise
    by_cases ha : a = 0 <;> by_cases hb : b = 0 <;> simp_all
  refine hnz _ _ _ ?_
  rcases hcase with hc | hc
  · left
    rw [runners_status]
    simp only [ne_eq, not_true_eq_false, if_false]
    exact hfind _ _ (List.mem_map.2 ⟨x, hp.mem_iff.2 hx, rfl⟩) hc
  · right
    unfold containerStatus
    rw [foldl_raise]
    simp only [ne_eq, not_true_eq_false, if_false]
    refine hfind _ _ ?_ hc
    simp only [List.map_map, List.mem_map]
    exact ⟨x, hx, rfl⟩

/-- C42.  And it is zero if there was no error before and no worker ends with one. -/
theorem C42_success (statuses order : List Int) (hp : order.Perm statuses) (h : ∀ s ∈ statuses, s = 0) :
    launchedErr 0 (runners ⟨0, []⟩ order).roStatus statuses = 0 := by
  have hr : (runners ⟨0, []⟩ order).roStatus = 0 := by
    rw [runners_status]
    simp only [ne_eq, not_true_eq_false, if_false]
    have : order.find? (· ≠ 0) = none := by
      rw [List.find?_eq_none]; intro x hx; simpa using h x (hp.mem_iff.1 hx)
    simpa using congrArg (fun o : Option Int => o.getD 0) this
  have hd : ∀ l : List Int, (∀ s ∈ l, s = 0) → disjunction 0 l = 0 := by
    intro l
    induction l with
    | nil => intro _; rfl
    | cons a l ih =>
      intro hl
      have ha := hl a (by simp)
      subst ha
      exact ih (fun s hs => hl s (by simp [hs]))
  simp [launchedErr, hr, hd statuses h, raise]

/-- Three workers, two of which fail: the first error to be thrown is the status, the other is logged. -/
example : runners ⟨0, []⟩ [0, 12, -528] = ⟨12, [-528]⟩ := rfl

/-! ## C46 -/

/-- The codes that should be in the log: the non-zero ones with repetitions in a row removed.  `prev` is the last one. -/
def distinctRuns : (prev : Int) → List Int → List Int
  | _, [] => []
  | prev, e :: es => if e = 0 ∨ e = prev then distinctRuns prev es else e :: distinctRuns e es

/-- What the log looks like when the codes in `l` have been recorded: not more than seventeen of them. -/
structure Represents (g : Log) (l : List Int) : Prop where
  len : g.arr.length = limit
  count : g.count = l.length
  codes : ∀ i, i < limit → i < l.length → g.arr[i]? = l[i]?

theorem Represents.last {g : Log} {l : List Int} (h : Represents g l) (hl : 0 < l.length) (hb : l.length ≤ limit) :
    g.arr[g.count - 1]? = l.getLast? := by
  rw [h.count, h.codes (l.length - 1) (by omega) (by omega), List.getLast?_eq_getElem?]

/-- Recording one code when at most sixteen have been recorded. -/
theorem throw_step {g : Log} {l : List Int} (h : Represents g l) (hb : l.length ≤ limit) (hnz : ∀ x ∈ l, x ≠ 0) (e : Int) :
    ∃ g', throwGlobally g e = some g' ∧
      Represents g' (if e = 0 ∨ l.getLast? = some e then l else l ++ [e]) := by
  by_cases he : e = 0
  · subst he
    exact ⟨g, by simp [throwGlobally], by simpa using h⟩
  · by_cases hl : l.length = 0
    · have hln : l = [] := List.length_eq_zero_iff.1 hl
      subst hln
      have hc : g.count = 0 := h.count
      refine ⟨⟨g.arr.set 0 e, 1⟩, ?_, ?_⟩
      · simp [throwGlobally, he, hc, limit]
      · simp only [he, List.getLast?_nil, reduceCtorEq, or_self, if_false, List.nil_append]
        refine ⟨by simp [h.len], rfl, ?_⟩
        intro i hi hi'
        have : i = 0 := by simpa using hi'
        subst this
        simp [h.len, limit]
    · have hc : g.count ≠ 0 := by rw [h.count]; exact hl
      have hlen := h.len
      have hset : ∀ i, i ≠ g.count →
          (if g.count < limit then g.arr.set g.count e else g.arr)[i]? = g.arr[i]? := by
        intro i hi
        split
        · rw [List.getElem?_set_ne (Ne.symm hi)]
        · rfl
      have hlast : (if g.count < limit then g.arr.set g.count e else g.arr)[g.count - 1]? = l.getLast? := by
        rw [hset _ (by omega)]; exact h.last (by omega) hb
      obtain ⟨x, hx⟩ : ∃ x, l.getLast? = some x := by
        cases hx : l.getLast? with
        | none => simp at hx; subst hx; simp at hl
        | some x => exact ⟨x, rfl⟩
      refine ⟨⟨if g.count < limit then g.arr.set g.count e else g.arr, if x ≠ e then g.count + 1 else g.count⟩, ?_, ?_⟩
      · simp only [throwGlobally, he, if_false, hc]
        rw [hlast, hx]
      · rw [hx]
        by_cases hxe : x = e
        · subst hxe
          simp only [or_true, if_true, ne_eq, not_true_eq_false, if_false]
          refine ⟨by split <;> simp [hlen], h.count, ?_⟩
          intro i hi hi'
          rw [hset _ (by rw [h.count]; omega)]
          exact h.codes i hi hi'
        · simp only [he, Option.some.injEq, hxe, or_self, if_false, ne_eq, not_false_eq_true, if_true]
          refine ⟨by split <;> simp [hlen], by simp [h.count], ?_⟩
          intro i hi hi'
          simp only [List.length_append, List.length_singleton] at hi'
          by_cases hil : i < l.length
          · rw [hset _ (by rw [h.count]; omega), List.getElem?_append_left hil]
            exact h.codes i hi hil
          · have hil' : i = g.count := by rw [h.count]; omega
            subst hil'
            rw [if_pos hi, h.count]
            simp [hlen, hi, h.count ▸ hi]

theorem throwAll_represents (es : List Int) : ∀ (g : Log) (l : List Int) (prev : Int), Represents g l → (∀ x ∈ l, x ≠ 0) →
    prev = l.getLast?.getD 0 → (l ++ distinctRuns prev es).length ≤ limit + 1 →
    (∀ es' e, es = es' ++ [e] → (l ++ distinctRuns prev es').length ≤ limit) →
    ∃ g', throwAll g es = some g' ∧ Represents g' (l ++ distinctRuns prev es) := by
  induction es with
  | nil => intro g l prev h _ _ _ _; exact ⟨g, rfl, by simpa [distinctRuns] using h⟩
  | cons e es ih =>
    intro g l prev h hnz hp hlen hpre
    have hb : l.length ≤ limit := by
      by_cases hes : es = []
      · have := hpre [] e (by simp [hes]); simpa [distinctRuns] using this
      · obtain ⟨es', x, hes'⟩ : ∃ es' x, es = es' ++ [x] := ⟨es.dropLast, es.getLast hes, (List.dropLast_append_getLast hes).symm⟩
        have := hpre (e :: es') x (by simp [hes'])
        simp only [List.length_append] at this; omega
    obtain ⟨g1, hg1, hr1⟩ := throw_step h hb hnz e
    have hcond : (e = 0 ∨ l.getLast? = some e) ↔ (e = 0 ∨ e = prev) := by
      rw [hp]
      cases hl : l.getLast? with
      | none => simp; 
      | some x =>
        simp only [Option.some.injEq, Option.getD_some]
        constructor <;> rintro (h | h) <;> simp [h]
    by_cases hc : e = 0 ∨ e = prev
    · rw [if_pos (hcond.2 hc)] at hr1
      have hd : distinctRuns prev (e :: es) = distinctRuns prev es := by simp [distinctRuns, hc]
      rw [hd] at hlen ⊢
      obtain ⟨g', h1, h2⟩ := ih g1 l prev hr1 hnz hp hlen (by
        intro es' x hx
        have := hpre (e :: es') x (by simp [hx])
        simpa [distinctRuns, hc] using this)
      exact ⟨g', by simp [throwAll, hg1, h1], h2⟩
    · rw [if_neg (fun hh => hc (hcond.1 hh))] at hr1
      have hd : distinctRuns prev (e :: es) = e :: distinctRuns e es := by simp [distinctRuns, hc]
      rw [hd] at hlen ⊢
      obtain ⟨g', h1, h2⟩ := ih g1 (l ++ [e]) e hr1 (by
          intro x hx
          rcases List.mem_append.1 hx with hx | hx
          · exact hnz x hx
          · simp only [List.mem_singleton] at hx; subst hx; exact fun h0 => hc (.inl h0)) (by simp)
        (by simpa using hlen) (by
          intro es' x hx
          have := hpre (e :: es') x (by simp [hx])
          simpa [distinctRuns, hc] using this)
      refine ⟨g', by simp [throwAll, hg1, h1], by simpa using h2⟩

/-- C46, the part that holds: recording any sequence of codes is well defined as long as at most sixteen codes, not counting
zeros and repetitions in a row, are recorded before the last one, and then the codes reported are the first sixteen. -/
theorem C46_global_log (es : List Int) (e : Int) (hlen : (distinctRuns 0 es).length ≤ limit) :
    ∃ g, throwAll Log.empty (es ++ [e]) = some g ∧ g.reported = (distinctRuns 0 (es ++ [e])).take limit ∧
      g.count = (distinctRuns 0 (es ++ [e])).length := by
  have hgrow : ∀ (es : List Int) (p : Int), (distinctRuns p (es ++ [e])).length ≤ (distinctRuns p es).length + 1 := by
    intro es
    induction es with
    | nil => intro p; simp only [List.nil_append, distinctRuns]; split <;> simp
    | cons a es ih =>
      intro p
      simp only [List.cons_append, distinctRuns]
      split
      · exact ih p
      · simpa using ih a
  have hmono : ∀ (es tl : List Int) (p : Int), (distinctRuns p es).length ≤ (distinctRuns p (es ++ tl)).length := by
    intro es tl
    induction es with
    | nil => intro p; simp [distinctRuns]
    | cons a es ih =>
      intro p
      simp only [List.cons_append, distinctRuns]
      split
      · exact ih p
      · simpa using ih a
  have h0 : Represents Log.empty [] := ⟨by simp [Log.empty], rfl, by intro i _ hi; simp at hi⟩
  obtain ⟨g, h1, h2⟩ := throwAll_represents (es ++ [e]) Log.empty [] 0 h0 (by simp) (by simp)
    (by simpa using (hgrow es 0).trans (by omega)) (by
      intro es' x hx
      have := List.append_inj' hx rfl
      simpa [← this.1] using hlen)
  refine ⟨g, h1, ?_, by simpa using h2.count⟩
  have hc : g.count = (distinctRuns 0 (es ++ [e])).length := by simpa using h2.count
  simp only [Log.reported, hc]
  apply List.ext_getElem?
  intro i
  simp only [List.getElem?_take]
  have hcodes := h2.codes i
  simp only [List.nil_append] at hcodes
  by_cases hi : i < limit
  · by_cases hi' : i < (distinctRuns 0 (es ++ [e])).length
    · rw [if_pos (by omega), if_pos hi]; exact hcodes hi hi'
    · rw [if_neg (by omega), if_pos hi]; simp; omega
  · rw [if_neg (by omega), if_neg hi]

/-- C46, the defect: after seventeen different codes, recording any code at all is undefined. -/
theorem C46_reads_past_the_end (g : Log) (hl : g.arr.length = limit) (hc : limit < g.count) (e : Int) (he : e ≠ 0) :
    throwGlobally g e = none := by
  have h1 : ¬ g.count < limit := by omega
  have h2 : g.count ≠ 0 := by omega
  simp only [throwGlobally, he, if_false, h1, h2]
  rw [List.getElem?_eq_none (by omega)]

/-- The defect is reached from the start by the codes 1 to 17 followed by any code. -/
theorem C46_defect_reachable (e : Int) (he : e ≠ 0) :
    throwAll Log.empty ([1, 2, 3, 4, 5, 6, 7, 8, 9, 10, 11, 12, 13, 14, 15, 16, 17] ++ [e]) = none := by
  have key : ∀ (l : List Int) (g : Log), throwAll g (l ++ [e]) = (throwAll g l).bind fun g' => throwGlobally g' e := by
    intro l
    induction l with
    | nil => intro g; simp [throwAll]
    | cons a l ih => 
      intro g
      simp only [List.cons_append, throwAll]
      cases throwGlobally g a with
      | none => rfl
      | some g' => simpa using ih g'
  rw [key]
  have : throwAll Log.empty [1, 2, 3, 4, 5, 6, 7, 8, 9, 10, 11, 12, 13, 14, 15, 16, 17] =
      some ⟨[1, 2, 3, 4, 5, 6, 7, 8, 9, 10, 11, 12, 13, 14, 15, 16], 17⟩ := rfl
  rw [this]
  exact C46_reads_past_the_end _ rfl (by decide) e he

example : (throwAll Log.empty [5, 5, 0, 7, 5]).map Log.reported = some [5, 7, 5] := by decide

/-! ## C47 -/

/-- C47.  There is a message for every int except the least one. -/
theorem C47_total (lo hi err : Int) (h : err ≠ intMin) : (strerror lo hi err).isSome := by
  unfold strerror
  split
  · rfl
  · split
    · rfl
    · split_ifs <;> simp_all

/-- C47, the defect: for the least int the code negates it, which is undefined. -/
theorem C47_int_min_undefined (lo hi : Int) : strerror lo hi intMin = none := by
  have h1 : texts.lookup intMin = none := by decide
  have h2 : ¬ intMin ≥ 0 := by decide
  unfold strerror
  rw [if_neg h2]
  simp only [h1, if_true]

/-- C47.  Documented codes have messages of their own, different from each other and from any message for another int. -/
theorem C47_distinct (lo hi : Int) (c : Int) (hc : c ∈ texts.map Prod.fst) (err : Int) (hne : err ≠ c) :
    ∃ s, strerror lo hi c = some (.text s) ∧ strerror lo hi err ≠ some (.text s) := by
  have hneg : ∀ c ∈ texts.map Prod.fst, c < 0 := by decide
  have hinj : ∀ c ∈ texts.map Prod.fst, ∀ d ∈ texts.map Prod.fst, texts.lookup c = texts.lookup d → c = d := by decide
  have hsome : ∀ c ∈ texts.map Prod.fst, (texts.lookup c).isSome := by decide
  obtain ⟨s, hs⟩ := Option.isSome_iff_exists.1 (hsome c hc)
  have hcn := hneg c hc
  refine ⟨s, ?_, ?_⟩
  · unfold strerror
    rw [if_neg (by omega), hs]
  · unfold strerror
    split
    · simp
    · cases hl : texts.lookup err with
      | some s' =>
        simp only [ne_eq, Option.some.injEq, Message.text.injEq]
        intro h'
        subst h'
        have hmem : err ∈ texts.map Prod.fst := by
          by_contra hn
          have : texts.lookup err = none := by
            rw [List.lookup_eq_none_iff]
            intro p hp
            have hpe : err ≠ p.1 := fun h' => hn (List.mem_map.2 ⟨p, hp, h'.symm⟩)
            simpa using hpe
          rw [this] at hl; cases hl
        exact hne (hinj err hmem c hc (hl.trans hs.symm))
      | none => dsimp only; split_ifs <;> simp

/-- Every code in the range reserved for documented errors has a message. -/
theorem C47_documented (lo hi : Int) (c : Int) (h1 : -556 ≤ c) (h2 : c ≤ -512) : ∃ s, strerror lo hi c = some (.text s) := by
  have : c ∈ texts.map Prod.fst := by
    obtain ⟨k, rfl⟩ : ∃ k : Nat, c = -556 + k := ⟨(c + 556).toNat, by omega⟩
    have hk : k < 45 := by omega
    have : ∀ k : Nat, k < 45 → (-556 + (k : Int)) ∈ texts.map Prod.fst := by decide
    exact this k hk
  obtain ⟨s, hs, _⟩ := C47_distinct lo hi c this 0 (by omega)
  exact ⟨s, hs⟩

theorem lookup_none (c : Int) (h : c < -556 ∨ -512 < c) : texts.lookup c = none := by
  have hr : ∀ c ∈ texts.map Prod.fst, -556 ≤ c ∧ c ≤ -512 := by decide
  cases hl : texts.lookup c with
  | none => rfl
  | some s =>
    exfalso
    have : c ∈ texts.map Prod.fst := by
      have := List.lookup_eq_some_iff.1 hl
      obtain ⟨l₁, l₂, e, -⟩ := this
      rw [e]; simp
    obtain ⟨h1, h2⟩ := hr c this
    omega

/-- C47.  The message for any other negative int except the least one: that of the nthm library for codes in its range, and otherwise one with
the number of the internal error or of the failure that can't be reported in another way, or else one that says that there is no diagnosis. -/
theorem C47_numbered (lo hi : Int) (c : Int) (hc : c < -556 ∨ -512 < c) (hn : c < 0) (hm : c ≠ intMin) :
    (lo ≤ -c ∧ -c ≤ hi → strerror lo hi c = some (.nthm c)) ∧
    (¬ (lo ≤ -c ∧ -c ≤ hi) →
      (-1792 ≤ c ∧ c < -556 → strerror lo hi c = some (.internal (-c))) ∧
      (-6305 ≤ c ∧ c < -1792 → strerror lo hi c = some (.failure (-c))) ∧
      (c < -6305 ∨ -512 < c → strerror lo hi c = some .undiagnosed)) := by
  have hl := lookup_none c hc
  unfold strerror
  rw [if_neg (by omega), hl]
  dsimp only
  rw [if_neg hm]
  refine ⟨fun h => if_pos h, fun h => ?_⟩
  rw [if_neg h]
  refine ⟨fun h1 => if_pos (by omega), fun h1 => ?_, fun h1 => ?_⟩
  · rw [if_neg (by omega), if_pos (by omega)]
  · rw [if_neg (by omega), if_neg (by omega)]

example : strerror 1 511 (-528) = some (.text "cru: user interrupt") ∧ strerror 1 511 (-700) = some (.internal 700) := by
  decide

end Cru.Errs
