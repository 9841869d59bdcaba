import Verif.Spec.Local

/-! # Lemmas about thread-specific storage -/

namespace Cru.Local

variable {A : Type}

/-- The values stored by the settings made so far. -/
def stored (b : Option A) (j : Nat) (l : List Setting) : Values A := l.foldl (fun v x => v.set b j x) fresh

def idled (o : Bool) (v : Values A) : Values A := if o then { v with context := v.context.map fun _ => .idle } else v

/-- The invariant of a thread. -/
structure Sound (s : Sys A) (t : Nat) (th : Thread A) : Prop where
  user : th.work = none → th.values = fresh
  task : ∀ w j, th.work = some (w, j) → ∃ b, s.jobs j = some b ∧ ∃ done, w.settings = done ++ th.todo ∧
    th.values = idled th.over (stored b.store j done) ∧ (th.over = true → th.todo = []) ∧
    (th.frames ≠ [] → th.todo = []) ∧
    ∀ f, th.frames.getLast? = some f → f.1 = j ∧ f.2.place = some (w, th.over)
  inner : ∀ f ∈ (if th.work = none then th.frames else th.frames.dropLast), f.2.place = none

def Inv (s : Sys A) : Prop := ∀ t th, s.threads t = some th → Sound s t th

theorem Sound.mono {s s' : Sys A} {t th} (h : Sound s t th)
    (hs : ∀ j b, s.jobs j = some b → ∃ b', s'.jobs j = some b' ∧ b'.store = b.store) : Sound s' t th := by
  refine ⟨h.user, ?_, h.inner⟩
  intro w j hw
  obtain ⟨b, hb, r⟩ := h.task w j hw
  obtain ⟨b', hb', e⟩ := hs j b hb
  exact ⟨b', hb', by rw [e]; exact r⟩

theorem Inv.jobs {s s' : Sys A} (h : Inv s) (ht : s'.threads = s.threads)
    (hs : ∀ j b, s.jobs j = some b → ∃ b', s'.jobs j = some b' ∧ b'.store = b.store) : Inv s' := by
  intro t th hth
  rw [ht] at hth
  exact (h t th hth).mono hs

theorem Inv.put {s : Sys A} (h : Inv s) {t th} (ht : ∀ x, th = some x → Sound s t x) : Inv (s.put t th) := by
  intro t' th' hth
  simp only [Sys.put, Function.update_apply] at hth
  split_ifs at hth with he
  · subst he
    exact (ht _ hth).mono fun j b hb => ⟨b, hb, rfl⟩
  · exact (h t' th' hth).mono fun j b hb => ⟨b, hb, rfl⟩

theorem post_store {s : Sys A} {j : Nat} {b b' : Job A} (hb : s.jobs j = some b) (he : b'.store = b.store) :
    ∀ i c, s.jobs i = some c → ∃ c', (s.post j b').jobs i = some c' ∧ c'.store = c.store := by
  intro i c hc
  by_cases hi : i = j
  · subst hi
    rw [hb] at hc
    cases hc
    exact ⟨b', by simp [Sys.post], he⟩
  · exact ⟨c, by simp [Sys.post, hi, hc], rfl⟩

theorem step_inv {s s' : Sys A} {e : Event A} (h : Inv s) (st : Step s e s') : Inv s' := by
  cases st with
  | set g a => exact h.jobs rfl fun j b hb => ⟨b, hb, rfl⟩
  | user t ht =>
    refine h.put ?_
    rintro x rfl'
    cases rfl'
    exact ⟨fun _ => rfl, fun w j hw => (by cases hw), by simp⟩
  | call t j g th ht hw hj =>
    refine h.jobs rfl ?_
    intro i c hc
    refine ⟨c, ?_, rfl⟩
    have hi : i ≠ j := by rintro rfl; rw [hj] at hc; cases hc
    simp [Sys.post, hi, hc]
  | start t w j b ht hb =>
    refine h.put ?_
    intro x hx
    cases hx
    refine ⟨fun hw => (by cases hw), ?_, by simp⟩
    intro w' j' hw
    cases hw
    exact ⟨b, hb, [], rfl, rfl, fun ho => (by cases ho), fun hf => (hf rfl).elim, fun f hf => (by cases hf)⟩
  | setting t th w j b x l ht hw hx hb =>
    refine h.put ?_
    intro y hy
    cases hy
    have hs := h t th ht
    obtain ⟨b', hb', done, e1, e2, e3, e4, e5⟩ := hs.task w j hw
    have : b' = b := by rw [hb] at hb'; cases hb'; rfl
    subst this
    refine ⟨fun hn => ?_, ?_, ?_⟩
    · rw [show ({ th with todo := l, values := th.values.set b'.store j x } : Thread A).work = th.work from rfl, hw] at hn
      cases hn
    · intro w' j' hw'
      have : (w', j') = (w, j) := by
        have := hw'
        rw [show ({ th with todo := l, values := th.values.set b'.store j x } : Thread A).work = th.work from rfl, hw] at this
        cases this; rfl
      cases this
      have ho : th.over = false := by
        cases hov : th.over
        · rfl
        · rw [e3 hov] at hx; cases hx
      refine ⟨b', hb', done ++ [x], ?_, ?_, ?_, ?_, ?_⟩
      · rw [e1, hx]; simp
      · show th.values.set b'.store j x = idled th.over _
        rw [ho] at e2 ⊢
        rw [e2]
        simp [idled, stored]
      · intro hov
        rw [show ({ th with todo := l, values := th.values.set b'.store j x } : Thread A).over = th.over from rfl, ho] at hov
        cases hov
      · intro hf
        rw [e4 hf] at hx; cases hx
      · exact e5
    · exact hs.inner
  | over t th w j ht hw htd hf =>
    refine h.put ?_
    intro y hy
    cases hy
    have hs := h t th ht
    obtain ⟨b, hb, done, e1, e2, e3, e4, e5⟩ := hs.task w j hw
    refine ⟨fun hn => ?_, ?_, ?_⟩
    · have : th.work = none := hn
      rw [hw] at this; cases this
    · intro w' j' hw'
      have hw'' : th.work = some (w', j') := hw'
      rw [hw] at hw''
      cases hw''
      refine ⟨b, hb, done, e1, ?_, fun _ => htd, fun _ => htd, ?_⟩
      · show ({ th.values with context := th.values.context.map fun _ => .idle } : Values A) = idled true _
        rw [e2]
        unfold idled
        cases th.over
        · simp
        · simp [Function.comp_def]
      · intro f hl
        have : th.frames.getLast? = some f := hl
        rw [hf] at this; cases this
    · intro f hm
      have : f ∈ (if th.work = none then th.frames else th.frames.dropLast) := hm
      exact hs.inner f this
  | enter t th w j c ht hw htd hf hc =>
    refine h.put ?_
    intro y hy
    cases hy
    have hs := h t th ht
    obtain ⟨b, hb, done, e1, e2, e3, e4, e5⟩ := hs.task w j hw
    refine ⟨fun hn => ?_, ?_, ?_⟩
    · have : th.work = none := hn
      rw [hw] at this; cases this
    · intro w' j' hw'
      have hw'' : th.work = some (w', j') := hw'
      rw [hw] at hw''
      cases hw''
      refine ⟨b, hb, done, e1, e2, e3, fun _ => htd, ?_⟩
      intro f hl
      simp at hl
      subst hl
      exact ⟨rfl, hc⟩
    · intro f hm
      simp [hw] at hm
  | enterCaller t th j b c ht hr hb hct hd hc =>
    refine h.put ?_
    intro y hy
    cases hy
    have hs := h t th ht
    refine ⟨hs.user, ?_, ?_⟩
    · intro w j' hw
      have hw' : th.work = some (w, j') := hw
      have hne : th.frames ≠ [] := by
        rcases hr with hr | hr
        · rw [hw'] at hr; cases hr
        · exact hr
      obtain ⟨b', hb', done, e1, e2, e3, e4, e5⟩ := hs.task w j' hw'
      refine ⟨b', hb', done, e1, e2, e3, fun _ => e4 hne, ?_⟩
      intro f hl
      refine e5 f ?_
      have hl' : ((j, c) :: th.frames).getLast? = some f := hl
      rwa [List.getLast?_cons_of_ne_nil hne] at hl'
    · intro f hm
      have hm' : f ∈ (if th.work = none then (j, c) :: th.frames else ((j, c) :: th.frames).dropLast) := hm
      by_cases hw : th.work = none
      · rw [if_pos hw] at hm'
        rcases List.mem_cons.1 hm' with rfl | hm'
        · exact hc
        · exact hs.inner f (by rw [if_pos hw]; exact hm')
      · rw [if_neg hw] at hm'
        have hne : th.frames ≠ [] := hr.resolve_left hw
        rw [List.dropLast_cons_of_ne_nil hne] at hm'
        rcases List.mem_cons.1 hm' with rfl | hm'
        · exact hc
        · exact hs.inner f (by rw [if_neg hw]; exact hm')
  | leave t th f l ht hf =>
    refine h.put ?_
    intro y hy
    cases hy
    have hs := h t th ht
    refine ⟨hs.user, ?_, ?_⟩
    · intro w j' hw
      have hw' : th.work = some (w, j') := hw
      obtain ⟨b', hb', done, e1, e2, e3, e4, e5⟩ := hs.task w j' hw'
      refine ⟨b', hb', done, e1, e2, e3, fun _ => e4 (by rw [hf]; simp), ?_⟩
      intro f' hl
      have hl' : l.getLast? = some f' := hl
      refine e5 f' ?_
      rw [hf]
      cases l with
      | nil => cases hl'
      | cons x l => rw [List.getLast?_cons_of_ne_nil (by simp)]; exact hl'
    · intro f' hm
      have hm' : f' ∈ (if th.work = none then l else l.dropLast) := hm
      by_cases hw : th.work = none
      · rw [if_pos hw] at hm'
        exact hs.inner f' (by rw [if_pos hw, hf]; exact List.mem_cons_of_mem _ hm')
      · rw [if_neg hw] at hm'
        refine hs.inner f' ?_
        rw [if_neg hw, hf]
        cases l with
        | nil => cases hm'
        | cons x l => rw [List.dropLast_cons_of_ne_nil (by simp)]; exact List.mem_cons_of_mem _ hm'
  | exit t th ht hf =>
    exact h.put fun x hx => (by cases hx)
  | kill j b hb => exact h.jobs rfl (post_store hb rfl)
  | reset j b hb _ => exact h.jobs rfl (post_store hb rfl)

theorem init_inv (a : Nat → Option A) : Inv (init a) := by
  intro t th h
  cases h

theorem runs_inv {s s' : Sys A} {es} (h : Inv s) (r : Runs s es s') : Inv s' := by
  induction r with
  | refl => exact h
  | step st _ ih => exact ih (step_inv h st)

theorem runs_append {s s' s'' : Sys A} {es es'} (h : Runs s es s') (h' : Runs s' es' s'') : Runs s (es ++ es') s'' := by
  induction h with
  | refl => exact h'
  | step st _ ih => exact .step st (ih h')

/-- A job's attribute doesn't change. -/
theorem runs_store {s s' : Sys A} {es} (r : Runs s es s') {j b} (hb : s.jobs j = some b) :
    ∃ b', s'.jobs j = some b' ∧ b'.store = b.store ∧ b'.killed = killedIn j es b.killed := by
  induction r generalizing b with
  | refl => exact ⟨b, hb, rfl, rfl⟩
  | @step s s' s'' e es st _ ih =>
    cases st with
    | set => exact ih hb
    | user => exact ih hb
    | call t i g th ht hw hj =>
      refine ih ?_
      have hi : j ≠ i := by rintro rfl; rw [hj] at hb; cases hb
      simp [Sys.post, hi, hb]
    | start => exact ih hb
    | setting => exact ih hb
    | over => exact ih hb
    | enter => exact ih hb
    | enterCaller => exact ih hb
    | leave => exact ih hb
    | exit => exact ih hb
    | kill i c hc =>
      by_cases hi : j = i
      · subst hi
        rw [hc] at hb
        cases hb
        obtain ⟨b', h1, h2, h3⟩ := ih (b := { b with killed := true }) (by simp [Sys.post])
        exact ⟨b', h1, h2, by simpa [killedIn] using h3⟩
      · obtain ⟨b', h1, h2, h3⟩ := ih (b := b) (by simp [Sys.post, hi, hb])
        exact ⟨b', h1, h2, by simpa [killedIn, Ne.symm hi] using h3⟩
    | reset i c hc _ =>
      by_cases hi : j = i
      · subst hi
        rw [hc] at hb
        cases hb
        obtain ⟨b', h1, h2, h3⟩ := ih (b := { b with killed := false }) (by simp [Sys.post])
        exact ⟨b', h1, h2, by simpa [killedIn] using h3⟩
      · obtain ⟨b', h1, h2, h3⟩ := ih (b := b) (by simp [Sys.post, hi, hb])
        exact ⟨b', h1, h2, by simpa [killedIn, Ne.symm hi] using h3⟩

theorem idled_store (o : Bool) (v : Values A) : (idled o v).store = v.store := by cases o <;> rfl
theorem idled_kill (o : Bool) (v : Values A) : (idled o v).kill = v.kill := by cases o <;> rfl

/-- What a worker's thread holds while a callback invoked by it is in progress. -/
theorem inside_values {s : Sys A} (h : Inv s) {t th w j} (ht : s.threads t = some th) (hw : th.work = some (w, j))
    (hf : th.frames ≠ []) : ∃ b, s.jobs j = some b ∧ th.values = idled th.over (stored b.store j w.settings) := by
  obtain ⟨b, hb, done, e1, e2, _, e4, _⟩ := (h t th ht).task w j hw
  rw [e4 hf, List.append_nil] at e1
  rw [← e1] at e2
  exact ⟨b, hb, e2⟩

/-- A callback placed in a task is invoked by a thread with that task. -/
theorem inside_place {s : Sys A} (h : Inv s) {t j c w o} (hi : Inside s t j c) (hc : c.place = some (w, o)) :
    ∃ th, s.threads t = some th ∧ th.work = some (w, j) ∧ th.frames = [(j, c)] ∧ th.over = o := by
  obtain ⟨th, ht, hh⟩ := hi
  have hs := h t th ht
  obtain ⟨l, hl⟩ : ∃ l, th.frames = (j, c) :: l := by
    cases hfr : th.frames with
    | nil => rw [hfr] at hh; cases hh
    | cons x l => rw [hfr] at hh; cases hh; exact ⟨l, rfl⟩
  cases hw : th.work with
  | none =>
    have := hs.inner (j, c) (by rw [if_pos hw, hl]; simp)
    rw [hc] at this; cases this
  | some x =>
    obtain ⟨w', j'⟩ := x
    have hnil : l = [] := by
      by_contra hne
      have := hs.inner (j, c) (by
        rw [if_neg (by rw [hw]; simp), hl, List.dropLast_cons_of_ne_nil hne]; simp)
      rw [hc] at this; cases this
    subst hnil
    obtain ⟨b, hb, done, e1, e2, e3, e4, e5⟩ := hs.task w' j' hw
    obtain ⟨h1, h2⟩ := e5 (j, c) (by rw [hl]; rfl)
    rw [hc] at h2
    cases h2
    cases h1
    exact ⟨th, ht, hw, hl, rfl⟩

theorem stored_store (b : Option A) (j : Nat) (w : Work) :
    (stored b j w.settings).store = if Setting.store ∈ w.settings then b else none := by
  cases w <;> rfl

theorem stored_kill (b : Option A) (j : Nat) (w : Work) :
    (stored b j w.settings).kill = if Setting.kill ∈ w.settings then some j else none := by
  cases w <;> rfl

theorem put_self (s : Sys A) (t : Nat) (x : Option (Thread A)) : (s.put t x).threads t = x := by simp [Sys.put]

theorem put_work {s : Sys A} {t u : Nat} {th x y : Thread A} (ht : s.threads t = some th) (hu : s.threads u = some x)
    (hw : y.work = x.work) : ∃ th', (s.put u (some y)).threads t = some th' ∧ th'.work = th.work := by
  by_cases he : t = u
  · subst he
    rw [hu] at ht
    cases ht
    exact ⟨y, put_self .., hw⟩
  · exact ⟨th, by simp [Sys.put, he, ht], rfl⟩

theorem put_new {s : Sys A} {t u : Nat} {th : Thread A} {y} (ht : s.threads t = some th) (hu : s.threads u = none) :
    ∃ th', (s.put u y).threads t = some th' ∧ th'.work = th.work := by
  have he : t ≠ u := by rintro rfl; rw [hu] at ht; cases ht
  exact ⟨th, by simp [Sys.put, he, ht], rfl⟩

/-- A thread keeps its task until it exits. -/
theorem step_work {s s' : Sys A} {e} (st : Step s e s') {t th} (ht : s.threads t = some th) (hx : e ≠ .exit t) :
    ∃ th', s'.threads t = some th' ∧ th'.work = th.work := by
  cases st with
  | set => exact ⟨th, ht, rfl⟩
  | user u hu => exact put_new ht hu
  | call => exact ⟨th, ht, rfl⟩
  | start u w j b hu hb => exact put_new ht hu
  | setting u x w j b y l hu => exact put_work ht hu rfl
  | over u x w j hu => exact put_work ht hu rfl
  | enter u x w j c hu => exact put_work ht hu rfl
  | enterCaller u x j b c hu => exact put_work ht hu rfl
  | leave u x f l hu => exact put_work ht hu rfl
  | exit u x hu hf =>
    have he : t ≠ u := by rintro rfl; exact hx rfl
    exact ⟨th, by simp [Sys.put, he, ht], rfl⟩
  | kill => exact ⟨th, ht, rfl⟩
  | reset => exact ⟨th, ht, rfl⟩

/-- A job isn't reset while a thread is working on it. -/
theorem runs_working {s s' : Sys A} {es} (r : Runs s es s') {t th w j} (ht : s.threads t = some th) (hw : th.work = some (w, j))
    (hx : Event.exit t ∉ es) : (∃ th', s'.threads t = some th' ∧ th'.work = some (w, j)) ∧ Event.reset j ∉ es := by
  induction r generalizing th with
  | refl => exact ⟨⟨th, ht, hw⟩, by simp⟩
  | @step s s' s'' e es st _ ih =>
    obtain ⟨th', h1, h2⟩ := step_work st ht (fun he => hx (by rw [he]; simp))
    obtain ⟨h3, h4⟩ := ih h1 (h2.trans hw) (fun he => hx (List.mem_cons_of_mem _ he))
    refine ⟨h3, ?_⟩
    intro hm
    rcases List.mem_cons.1 hm with he | hm
    · subst he
      cases st with
      | reset _ b hb hn => exact hn t th ht w hw
    · exact h4 hm

theorem killedIn_true {j : Nat} {es : List (Event A)} (hr : Event.reset j ∉ es) {b : Bool} (hk : b = true ∨ Event.kill j ∈ es) :
    killedIn j es b = true := by
  induction es generalizing b with
  | nil => simpa [killedIn] using hk
  | cons e es ih =>
    have hr' : Event.reset j ∉ es := fun h => hr (List.mem_cons_of_mem _ h)
    by_cases hkj : e = Event.kill j
    · subst hkj
      simp only [killedIn, if_true]
      exact ih hr' (.inl rfl)
    · have hk' : b = true ∨ Event.kill j ∈ es := by
        rcases hk with hk | hk
        · exact .inl hk
        · rcases List.mem_cons.1 hk with he | hk
          · exact (hkj he.symm).elim
          · exact .inr hk
      cases e with
      | kill i =>
        have : i ≠ j := fun h => hkj (by rw [h])
        simp only [killedIn, if_neg this]
        exact ih hr' hk'
      | reset i =>
        have : i ≠ j := fun h => hr (by rw [h]; simp)
        simp only [killedIn, if_neg this]
        exact ih hr' hk'
      | _ => exact ih hr' hk'

theorem runs_work {s s' : Sys A} {es} (r : Runs s es s') {t th} (ht : s.threads t = some th)
    (hx : Event.exit t ∉ es) : ∃ th', s'.threads t = some th' ∧ th'.work = th.work := by
  induction r generalizing th with
  | refl => exact ⟨th, ht, rfl⟩
  | step st _ ih =>
    obtain ⟨th', h1, h2⟩ := step_work st ht (fun he => hx (by rw [he]; simp))
    obtain ⟨th'', h3, h4⟩ := ih h1 (fun he => hx (List.mem_cons_of_mem _ he))
    exact ⟨th'', h3, h4.trans h2⟩

theorem stored_context (b : Option A) (j : Nat) (w : Work) :
    (stored b j w.settings).context = w.settings.foldl (fun c x => match x with | .context d => some d | _ => c) none := by
  cases w <;> rfl

/-- An executable version for concrete cases. -/
def exec (s : Sys A) : Event A → Option (Sys A)
  | .set g a => some { s with graphs := Function.update s.graphs g a }
  | .user t => if (s.threads t).isNone then some (s.put t (some ⟨none, [], false, fresh, []⟩)) else none
  | .call t j g =>
    match s.threads t, s.jobs j with
    | some th, none =>
      if th.work.isNone ∨ !th.frames.isEmpty then some (s.post j ⟨s.graphs g, false, t, th.frames.length⟩) else none
    | _, _ => none
  | .start t w j =>
    match s.threads t, s.jobs j with
    | none, some _ => some (s.put t (some ⟨some (w, j), w.settings, false, fresh, []⟩))
    | _, _ => none
  | .setting t =>
    match s.threads t with
    | some th =>
      match th.work, th.todo with
      | some (_, j), x :: l =>
        match s.jobs j with
        | some b => some (s.put t (some { th with todo := l, values := th.values.set b.store j x }))
        | none => none
      | _, _ => none
    | none => none
  | .enter t j c =>
    match s.threads t with
    | some th =>
      match c.place with
      | some (w, o) =>
        if th.work = some (w, j) ∧ th.todo = [] ∧ th.frames = [] ∧ o = th.over then some (s.put t (some { th with frames := [(j, c)] }))
        else none
      | none =>
        match s.jobs j with
        | some b =>
          if (th.work = none ∨ th.frames ≠ []) ∧ b.caller = t ∧ th.frames.length = b.depth then
            some (s.put t (some { th with frames := (j, c) :: th.frames }))
          else none
        | none => none
    | none => none
  | .kill j => (s.jobs j).map fun b => s.post j { b with killed := true }
  | _ => none

theorem exec_sound {s s' : Sys A} {e : Event A} (h : exec s e = some s') : Step s e s' := by
  cases e with
  | set g a => cases h; exact .set s g a
  | user t =>
    simp only [exec] at h
    split_ifs at h with ht
    cases h
    exact .user s t (by simpa using ht)
  | call t j g =>
    simp only [exec] at h
    split at h
    · rename_i th ht hj
      split_ifs at h with hw
      cases h
      refine .call s t j g th ht ?_ hj
      rcases hw with hw | hw
      · exact .inl (by simpa using hw)
      · exact .inr (by intro he; rw [he] at hw; cases hw)
    · cases h
  | start t w j =>
    simp only [exec] at h
    split at h
    · rename_i b ht hj
      cases h
      exact .start s t w j b ht hj
    · cases h
  | setting t =>
    simp only [exec] at h
    split at h
    · rename_i th ht
      split at h
      · rename_i w j x l hw hx
        split at h
        · rename_i b hb
          cases h
          exact .setting s t th w j b x l ht hw hx hb
        · cases h
      · cases h
    · cases h
  | over => cases h
  | enter t j c =>
    simp only [exec] at h
    split at h
    · rename_i th ht
      split at h
      · rename_i w o hc
        split_ifs at h with hh
        cases h
        obtain ⟨h1, h2, h3, h4⟩ := hh
        exact .enter s t th w j c ht h1 h2 h3 (by rw [hc, h4])
      · rename_i hc
        split at h
        · rename_i b hb
          split_ifs at h with hh
          cases h
          exact .enterCaller s t th j b c ht hh.1 hb hh.2.1 hh.2.2 hc
        · cases h
    · cases h
  | leave => cases h
  | exit => cases h
  | kill j =>
    simp only [exec, Option.map_eq_some_iff] at h
    obtain ⟨b, hb, rfl⟩ := h
    exact .kill s j b hb
  | reset => cases h

def execs (s : Sys A) : List (Event A) → Option (Sys A)
  | [] => some s
  | e :: es => (exec s e).bind fun s => execs s es

theorem execs_sound {s s' : Sys A} {es : List (Event A)} (h : execs s es = some s') : Runs s es s' := by
  induction es generalizing s with
  | nil => cases h; exact .refl _
  | cons e es ih =>
    simp only [execs, Option.bind_eq_some_iff] at h
    obtain ⟨m, h1, h2⟩ := h
    exact .step (exec_sound h1) (ih h2)

end Cru.Local
