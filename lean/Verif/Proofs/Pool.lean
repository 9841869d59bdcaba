import Verif.Spec.Pool
import Mathlib.Data.List.Basic
import Mathlib.Logic.Hydra
import Mathlib.Tactic

/-!
# Lemmas about threads that share memory and locks
-/

namespace Cru.Pool

variable {A X L : Type} [DecidableEq A] [DecidableEq L]

theorem put_same {B Y : Type} [DecidableEq B] (m : B → Y) (b : B) (y : Y) : put m b y b = y := if_pos rfl

theorem put_other {B Y : Type} [DecidableEq B] (m : B → Y) {b c : B} (y : Y) (h : c ≠ b) : put m b y c = m c := if_neg h

/-- The possible steps. -/
theorem step_cases {t : Nat} {s s' : State A X L} (h : step t s = some s') :
    (∃ a k, s.threads[t]? = some (.load a k) ∧ s' = { s with threads := s.threads.set t (k (s.mem a)) }) ∨
    (∃ a x k, s.threads[t]? = some (.store a x k) ∧ s' = { s with threads := s.threads.set t k, mem := put s.mem a x }) ∨
    (∃ l k, s.threads[t]? = some (.rdlock l k) ∧ s.writer l = none ∧
      s' = { s with threads := s.threads.set t k, readers := put s.readers l (t :: s.readers l) }) ∨
    (∃ l k, s.threads[t]? = some (.wrlock l k) ∧ s.writer l = none ∧ s.readers l = [] ∧
      s' = { s with threads := s.threads.set t k, writer := put s.writer l (some t) }) ∨
    (∃ l k, s.threads[t]? = some (.unlock l k) ∧ s.writer l = some t ∧
      s' = { s with threads := s.threads.set t k, writer := put s.writer l none }) ∨
    (∃ l k, s.threads[t]? = some (.unlock l k) ∧ s.writer l ≠ some t ∧ t ∈ s.readers l ∧
      s' = { s with threads := s.threads.set t k, readers := put s.readers l ((s.readers l).erase t) }) ∨
    (∃ c k, s.threads[t]? = some (.start c k) ∧ s' = { s with threads := s.threads.set t (k s.threads.length) ++ [c] }) ∨
    (∃ u k, s.threads[t]? = some (.join u k) ∧ s.threads[u]? = some .done ∧ s' = { s with threads := s.threads.set t k }) := by
  unfold step at h
  cases hc : s.threads[t]? with
  | none => rw [hc] at h; cases h
  | some c =>
    rw [hc] at h
    cases c with
    | done => cases h
    | load a k => exact .inl ⟨a, k, rfl, (Option.some.inj h).symm⟩
    | store a x k => exact .inr (.inl ⟨a, x, k, rfl, (Option.some.inj h).symm⟩)
    | rdlock l k =>
      dsimp only at h
      by_cases hw : s.writer l = none
      · rw [if_pos hw] at h
        exact .inr (.inr (.inl ⟨l, k, rfl, hw, (Option.some.inj h).symm⟩))
      · rw [if_neg hw] at h; cases h
    | wrlock l k =>
      dsimp only at h
      by_cases hw : s.writer l = none ∧ s.readers l = []
      · rw [if_pos hw] at h
        exact .inr (.inr (.inr (.inl ⟨l, k, rfl, hw.1, hw.2, (Option.some.inj h).symm⟩)))
      · rw [if_neg hw] at h; cases h
    | unlock l k =>
      dsimp only at h
      by_cases hw : s.writer l = some t
      · rw [if_pos hw] at h
        exact .inr (.inr (.inr (.inr (.inl ⟨l, k, rfl, hw, (Option.some.inj h).symm⟩))))
      · rw [if_neg hw] at h
        by_cases hr : t ∈ s.readers l
        · rw [if_pos hr] at h
          exact .inr (.inr (.inr (.inr (.inr (.inl ⟨l, k, rfl, hw, hr, (Option.some.inj h).symm⟩)))))
        · rw [if_neg hr] at h; cases h
    | start c k => exact .inr (.inr (.inr (.inr (.inr (.inr (.inl ⟨c, k, rfl, (Option.some.inj h).symm⟩))))))
    | join u k =>
      dsimp only at h
      cases hu : s.threads[u]? with
      | none => rw [hu] at h; cases h
      | some d =>
        rw [hu] at h
        cases d with
        | done => exact .inr (.inr (.inr (.inr (.inr (.inr (.inr ⟨u, k, rfl, hu, (Option.some.inj h).symm⟩))))))
        | _ => cases h

theorem lt_of_get {ts : List (Code A X L)} {t : Nat} {c : Code A X L} (h : ts[t]? = some c) : t < ts.length := by
  rw [List.getElem?_eq_some_iff] at h
  exact h.1

theorem set_same {ts : List (Code A X L)} {t : Nat} {c : Code A X L} (h : t < ts.length) : (ts.set t c)[t]? = some c :=
  List.getElem?_set_self h

theorem set_other {ts : List (Code A X L)} {t u : Nat} {c : Code A X L} (h : u ≠ t) : (ts.set t c)[u]? = ts[u]? :=
  List.getElem?_set_ne (Ne.symm h)

/-- A thread after a step of thread `t` that doesn't create one. -/
theorem set_get {ts : List (Code A X L)} {t u : Nat} {c d : Code A X L} (h : (ts.set t c)[u]? = some d) :
    (u = t ∧ d = c) ∨ (u ≠ t ∧ ts[u]? = some d) := by
  by_cases hu : u = t
  · subst hu
    have hl := lt_of_get h
    rw [List.length_set] at hl
    rw [set_same hl] at h
    exact .inl ⟨rfl, (Option.some.inj h).symm⟩
  · rw [set_other hu] at h
    exact .inr ⟨hu, h⟩

/-- A thread after a step of thread `t` that creates one. -/
theorem start_get {ts : List (Code A X L)} {t u : Nat} {c d n : Code A X L} (h : (ts.set t c ++ [n])[u]? = some d) :
    (u = t ∧ d = c) ∨ (u ≠ t ∧ ts[u]? = some d) ∨ (u = ts.length ∧ d = n) := by
  by_cases hu : u < (ts.set t c).length
  · rw [List.getElem?_append_left hu] at h
    rcases set_get h with h | h
    · exact .inl h
    · exact .inr (.inl h)
  · rw [List.getElem?_append_right (Nat.le_of_not_lt hu)] at h
    rw [List.length_set] at h hu
    have : u - ts.length = 0 := by
      have := lt_of_get h
      simpa using this
    rw [this] at h
    refine .inr (.inr ⟨by omega, ?_⟩)
    simpa using h.symm

/-! ## Threads that are polite -/

/-- Who has which lock, and who has started whom. -/
structure Orderly (held : Nat → Option L) (kids : Nat → List Nat) (s : State A X L) : Prop where
  polite : ∀ {t c}, s.threads[t]? = some c → Polite (kids t) (held t) c ∧ ∀ u ∈ kids t, t < u ∧ u < s.threads.length
  writer : ∀ {l t}, s.writer l = some t → held t = some l
  reader : ∀ {l t}, t ∈ s.readers l → held t = some l
  has : ∀ {l t}, held t = some l → (s.writer l = some t ∧ s.readers l = []) ∨ (t ∈ s.readers l ∧ s.writer l = none)
  nodup : ∀ l, (s.readers l).Nodup
  beyond : ∀ {t}, s.threads.length ≤ t → held t = none

theorem orderly_step {held : Nat → Option L} {kids : Nat → List Nat} {s s' : State A X L} {t : Nat} (hi : Orderly held kids s)
    (h : step t s = some s') : ∃ held' kids', Orderly held' kids' s' := by
  obtain ⟨hp, hw, hr, hh, hn, hb⟩ := hi
  rcases step_cases h with ⟨a, k, hc, rfl⟩ | ⟨a, x, k, hc, rfl⟩ | ⟨l, k, hc, hl, rfl⟩ | ⟨l, k, hc, hl, hl', rfl⟩ | ⟨l, k, hc, hl, rfl⟩ |
    ⟨l, k, hc, hl', hl, rfl⟩ | ⟨c, k, hc, rfl⟩ | ⟨u, k, hc, hu, rfl⟩
  · obtain ⟨p1, p2⟩ := hp hc
    refine ⟨held, kids, ⟨fun {u d} hd => ?_, hw, hr, hh, hn, ?_⟩⟩
    · rw [List.length_set]
      rcases set_get hd with ⟨rfl, rfl⟩ | ⟨-, hd⟩
      · generalize hg : held u = g at p1 ⊢
        cases p1 with | load p => exact ⟨p _, p2⟩
      · exact hp hd
    · intro v h'
      exact hb (by simpa using h')
  · obtain ⟨p1, p2⟩ := hp hc
    refine ⟨held, kids, ⟨fun {u d} hd => ?_, hw, hr, hh, hn, ?_⟩⟩
    · rw [List.length_set]
      rcases set_get hd with ⟨rfl, rfl⟩ | ⟨-, hd⟩
      · generalize hg : held u = g at p1 ⊢
        cases p1 with | store p => exact ⟨p, p2⟩
      · exact hp hd
    · intro v h'
      exact hb (by simpa using h')
  · obtain ⟨p1, p2⟩ := hp hc
    have ht := lt_of_get hc
    generalize hg : held t = g at p1
    cases p1 with
    | rdlock p =>
    refine ⟨put held t (some l), kids, ⟨fun {u d} hd => ?_, fun {l' u} h' => ?_, fun {l' u} h' => ?_, fun {l' u} h' => ?_, fun l' => ?_,
      fun {u} h' => ?_⟩⟩
    · rw [List.length_set]
      rcases set_get hd with ⟨rfl, rfl⟩ | ⟨hne, hd⟩
      · rw [put_same]; exact ⟨p, p2⟩
      · rw [put_other _ _ hne]; exact hp hd
    · have := hw h'
      rw [put_other _ _ (by rintro rfl; rw [hg] at this; cases this)]
      exact this
    · by_cases hll : l' = l
      · subst hll
        dsimp only at h'
        rw [put_same] at h'
        rcases List.mem_cons.1 h' with rfl | h'
        · exact put_same ..
        · have := hr h'
          rw [put_other _ _ (by rintro rfl; rw [hg] at this; cases this)]
          exact this
      · dsimp only at h'
        rw [put_other _ _ hll] at h'
        have := hr h'
        rw [put_other _ _ (by rintro rfl; rw [hg] at this; cases this)]
        exact this
    · by_cases hut : u = t
      · subst hut
        rw [put_same] at h'
        cases h'
        refine .inr ⟨?_, hl⟩
        dsimp only
        rw [put_same]
        exact List.mem_cons_self
      · rw [put_other _ _ hut] at h'
        by_cases hll : l' = l
        · subst hll
          rcases hh h' with h2 | h2
          · rw [hl] at h2; cases h2.1
          · refine .inr ⟨?_, hl⟩
            dsimp only
            rw [put_same]
            exact List.mem_cons_of_mem _ h2.1
        · dsimp only
          rw [put_other _ _ hll]
          exact hh h'
    · dsimp only
      by_cases hll : l' = l
      · subst hll
        rw [put_same]
        refine List.nodup_cons.2 ⟨fun h2 => ?_, hn _⟩
        have := hr h2
        rw [hg] at this; cases this
      · rw [put_other _ _ hll]; exact hn _
    · rw [List.length_set] at h'
      rw [put_other _ _ (by omega)]
      exact hb h'
  · obtain ⟨p1, p2⟩ := hp hc
    have ht := lt_of_get hc
    generalize hg : held t = g at p1
    cases p1 with
    | wrlock p =>
    refine ⟨put held t (some l), kids, ⟨fun {u d} hd => ?_, fun {l' u} h' => ?_, fun {l' u} h' => ?_, fun {l' u} h' => ?_, hn,
      fun {u} h' => ?_⟩⟩
    · rw [List.length_set]
      rcases set_get hd with ⟨rfl, rfl⟩ | ⟨hne, hd⟩
      · rw [put_same]; exact ⟨p, p2⟩
      · rw [put_other _ _ hne]; exact hp hd
    · dsimp only at h'
      by_cases hll : l' = l
      · subst hll
        rw [put_same] at h'
        cases h'
        exact put_same ..
      · rw [put_other _ _ hll] at h'
        have := hw h'
        rw [put_other _ _ (by rintro rfl; rw [hg] at this; cases this)]
        exact this
    · have := hr h'
      rw [put_other _ _ (by rintro rfl; rw [hg] at this; cases this)]
      exact this
    · by_cases hut : u = t
      · subst hut
        rw [put_same] at h'
        cases h'
        exact .inl ⟨put_same .., hl'⟩
      · rw [put_other _ _ hut] at h'
        dsimp only
        by_cases hll : l' = l
        · subst hll
          rcases hh h' with h2 | h2
          · rw [hl] at h2; cases h2.1
          · rw [hl'] at h2; cases h2.1
        · rw [put_other _ _ hll]
          exact hh h'
    · rw [List.length_set] at h'
      rw [put_other _ _ (by omega)]
      exact hb h'
  · obtain ⟨p1, p2⟩ := hp hc
    have ht := lt_of_get hc
    have hg := hw hl
    rw [hg] at p1
    cases p1 with
    | unlock p =>
    have h0 : s.readers l = [] := by
      rcases hh hg with h2 | h2
      · exact h2.2
      · rw [hl] at h2; cases h2.2
    refine ⟨put held t none, kids, ⟨fun {u d} hd => ?_, fun {l' u} h' => ?_, fun {l' u} h' => ?_, fun {l' u} h' => ?_, hn,
      fun {u} h' => ?_⟩⟩
    · rw [List.length_set]
      rcases set_get hd with ⟨rfl, rfl⟩ | ⟨hne, hd⟩
      · rw [put_same]; exact ⟨p, p2⟩
      · rw [put_other _ _ hne]; exact hp hd
    · dsimp only at h'
      by_cases hll : l' = l
      · subst hll
        rw [put_same] at h'; cases h'
      · rw [put_other _ _ hll] at h'
        have := hw h'
        rw [put_other _ _ (by rintro rfl; rw [hg] at this; exact hll (Option.some.inj this).symm)]
        exact this
    · have := hr h'
      dsimp only at h'
      rw [put_other _ _ (by rintro rfl; rw [hg] at this; cases this; rw [h0] at h'; cases h')]
      exact this
    · by_cases hut : u = t
      · subst hut
        rw [put_same] at h'; cases h'
      · rw [put_other _ _ hut] at h'
        dsimp only
        by_cases hll : l' = l
        · subst hll
          rcases hh h' with h2 | h2
          · rw [hl] at h2; exact absurd (Option.some.inj h2.1).symm hut
          · rw [h0] at h2; cases h2.1
        · rw [put_other _ _ hll]
          exact hh h'
    · rw [List.length_set] at h'
      rw [put_other _ _ (by omega)]
      exact hb h'
  · obtain ⟨p1, p2⟩ := hp hc
    have ht := lt_of_get hc
    have hg := hr hl
    rw [hg] at p1
    cases p1 with
    | unlock p =>
    have h0 : s.writer l = none := by
      rcases hh hg with h2 | h2
      · exact absurd h2.1 hl'
      · exact h2.2
    refine ⟨put held t none, kids, ⟨fun {u d} hd => ?_, fun {l' u} h' => ?_, fun {l' u} h' => ?_, fun {l' u} h' => ?_, fun l' => ?_,
      fun {u} h' => ?_⟩⟩
    · rw [List.length_set]
      rcases set_get hd with ⟨rfl, rfl⟩ | ⟨hne, hd⟩
      · rw [put_same]; exact ⟨p, p2⟩
      · rw [put_other _ _ hne]; exact hp hd
    · have := hw h'
      dsimp only at h'
      rw [put_other _ _ (by rintro rfl; rw [hg] at this; cases this; rw [h0] at h'; cases h')]
      exact this
    · dsimp only at h'
      by_cases hll : l' = l
      · subst hll
        rw [put_same] at h'
        have hm := (hn l').mem_erase_iff.1 h'
        rw [put_other _ _ hm.1]
        exact hr hm.2
      · rw [put_other _ _ hll] at h'
        have := hr h'
        rw [put_other _ _ (by rintro rfl; rw [hg] at this; exact hll (Option.some.inj this).symm)]
        exact this
    · by_cases hut : u = t
      · subst hut
        rw [put_same] at h'; cases h'
      · rw [put_other _ _ hut] at h'
        dsimp only
        by_cases hll : l' = l
        · subst hll
          rcases hh h' with h2 | h2
          · rw [h0] at h2; cases h2.1
          · rw [put_same]
            exact .inr ⟨(hn l').mem_erase_iff.2 ⟨hut, h2.1⟩, h0⟩
        · rw [put_other _ _ hll]
          exact hh h'
    · dsimp only
      by_cases hll : l' = l
      · subst hll
        rw [put_same]
        exact (hn l').erase t
      · rw [put_other _ _ hll]; exact hn _
    · rw [List.length_set] at h'
      rw [put_other _ _ (by omega)]
      exact hb h'
  · obtain ⟨p1, p2⟩ := hp hc
    have ht := lt_of_get hc
    generalize hg : held t = g at p1
    cases p1 with
    | start q p =>
    refine ⟨held, put (put kids t (s.threads.length :: kids t)) s.threads.length [], ⟨fun {u d} hd => ?_, hw, hr, hh, hn, fun {u} h' => ?_⟩⟩
    · dsimp only at hd ⊢
      rw [List.length_append, List.length_set, List.length_singleton]
      rcases start_get hd with ⟨rfl, rfl⟩ | ⟨hne, hd⟩ | ⟨rfl, rfl⟩
      · rw [put_other _ _ (by omega), put_same, hg]
        refine ⟨p _, fun v hv => ?_⟩
        rcases List.mem_cons.1 hv with rfl | hv
        · omega
        · have := p2 v hv; omega
      · have := lt_of_get hd
        rw [put_other _ _ (by omega), put_other _ _ hne]
        refine ⟨(hp hd).1, fun v hv => ?_⟩
        have := (hp hd).2 v hv; omega
      · rw [put_same, hb (le_refl _)]
        exact ⟨q, fun v hv => (by cases hv)⟩
    · rw [List.length_append, List.length_set] at h'
      exact hb (by omega)
  · obtain ⟨p1, p2⟩ := hp hc
    generalize hg : held t = g at p1
    cases p1 with
    | join q p =>
    refine ⟨held, kids, ⟨fun {v d} hd => ?_, hw, hr, hh, hn, ?_⟩⟩
    · rw [List.length_set]
      rcases set_get hd with ⟨rfl, rfl⟩ | ⟨-, hd⟩
      · rw [hg]; exact ⟨p, p2⟩
      · exact hp hd
    · intro v h'
      exact hb (by simpa using h')

theorem orderly_reach {ts : List (Code A X L)} {m : A → X} {s : State A X L} (hp : ∀ c ∈ ts, Polite [] none c)
    (h : Reach (init ts m) s) : ∃ held kids, Orderly held kids s := by
  induction h with
  | init =>
    refine ⟨fun _ => none, fun _ => [], ⟨fun {t c} hc => ⟨hp c (List.mem_of_getElem? hc), fun u hu => (by cases hu)⟩, fun h => (by cases h),
      fun h => (by cases h), fun h => (by cases h), fun _ => List.nodup_nil, fun _ => rfl⟩⟩
  | step t h1 h2 ih =>
    obtain ⟨held, kids, hi⟩ := ih
    exact orderly_step hi h2

/-- If threads are polite, some thread can take a step, unless all have ended. -/
theorem orderly_live {held : Nat → Option L} {kids : Nat → List Nat} {s : State A X L} (hi : Orderly held kids s)
    (hs : ∀ t, step t s = none) : Ended s := by
  obtain ⟨hp, hw, hr, hh, hn, hb⟩ := hi
  -- a thread with a lock could go on
  have free : ∀ t l, held t ≠ some l := by
    intro t l hg
    by_cases hl : s.threads.length ≤ t
    · rw [hb hl] at hg; cases hg
    obtain ⟨c, hc⟩ : ∃ c, s.threads[t]? = some c := ⟨_, List.getElem?_eq_getElem (Nat.lt_of_not_le hl)⟩
    have h1 := (hp hc).1
    have h2 := hs t
    rw [hg] at h1
    unfold step at h2
    rw [hc] at h2
    cases h1 with
    | load _ => cases h2
    | store _ => cases h2
    | unlock _ =>
      dsimp only at h2
      rcases hh hg with h3 | h3
      · rw [if_pos h3.1] at h2; cases h2
      · rw [if_neg (by rw [h3.2]; simp), if_pos h3.1] at h2; cases h2
  -- so all locks are free and threads only wait for threads they have started
  have ind : ∀ k t c, s.threads.length - t = k → s.threads[t]? = some c → c = .done := by
    intro k
    induction k using Nat.strong_induction_on with
    | _ k ih =>
    intro t c hk hc
    have h1 := hp hc
    have h2 := hs t
    unfold step at h2
    rw [hc] at h2
    have ht := lt_of_get hc
    cases c with
    | done => rfl
    | load a k => cases h2
    | store a x k => cases h2
    | rdlock l k =>
      dsimp only at h2
      cases hw' : s.writer l with
      | none => rw [if_pos hw'] at h2; cases h2
      | some u => exact absurd (hw hw') (free u l)
    | wrlock l k =>
      dsimp only at h2
      cases hw' : s.writer l with
      | none =>
        cases hr' : s.readers l with
        | nil => rw [if_pos ⟨hw', hr'⟩] at h2; cases h2
        | cons u us => exact absurd (hr (by rw [hr']; exact List.mem_cons_self)) (free u l)
      | some u => exact absurd (hw hw') (free u l)
    | unlock l k =>
      have h3 := h1.1
      generalize hg : held t = g at h3
      cases h3 with
      | unlock _ => exact absurd hg (free t l)
    | start c k => cases h2
    | join u k =>
      have h3 := h1.1
      generalize hg : held t = g at h3
      cases h3 with
      | join q p =>
      have hu := h1.2 u q
      have hd := List.getElem?_eq_getElem (l := s.threads) hu.2
      have := ih (s.threads.length - u) (by omega) u _ rfl hd
      rw [this] at hd
      dsimp only at h2
      rw [hd] at h2
      cases h2
  intro c hc
  obtain ⟨t, ht⟩ := List.mem_iff_getElem?.1 hc
  exact ind _ t c rfl ht

/-! ## Threads come to an end or are stuck -/

/-- What remains to be done after one step, or is to be done by a thread that's created. -/
inductive Sub : Code A X L → Code A X L → Prop
  | load {a k x} : Sub (k x) (.load a k)
  | store {a x k} : Sub k (.store a x k)
  | rdlock {l k} : Sub k (.rdlock l k)
  | wrlock {l k} : Sub k (.wrlock l k)
  | unlock {l k} : Sub k (.unlock l k)
  | start {c k u} : Sub (k u) (.start c k)
  | child {c k} : Sub c (.start c k)
  | join {u k} : Sub k (.join u k)

theorem sub_wf : WellFounded (Sub (A := A) (X := X) (L := L)) := by
  refine ⟨fun c => ?_⟩
  induction c with
  | done => exact ⟨_, fun d h => (by cases h)⟩
  | load a k ih => exact ⟨_, fun d h => (by cases h; exact ih _)⟩
  | store a x k ih => exact ⟨_, fun d h => (by cases h; exact ih)⟩
  | rdlock l k ih => exact ⟨_, fun d h => (by cases h; exact ih)⟩
  | wrlock l k ih => exact ⟨_, fun d h => (by cases h; exact ih)⟩
  | unlock l k ih => exact ⟨_, fun d h => (by cases h; exact ih)⟩
  | start c k ih1 ih2 => exact ⟨_, fun d h => (by cases h; exacts [ih2 _, ih1])⟩
  | join u k ih => exact ⟨_, fun d h => (by cases h; exact ih)⟩

theorem set_coe {ts : List (Code A X L)} {t : Nat} {c d : Code A X L} (h : ts[t]? = some c) :
    ((ts.set t d : List _) : Multiset (Code A X L)) + {c} = (ts : Multiset _) + {d} := by
  induction ts generalizing t with
  | nil => simp at h
  | cons e es ih =>
    cases t with
    | zero =>
      simp only [List.getElem?_cons_zero, Option.some.injEq] at h
      subst h
      rw [List.set_cons_zero, ← Multiset.cons_coe, ← Multiset.cons_coe, ← Multiset.singleton_add, ← Multiset.singleton_add e]
      simp only [add_assoc, add_comm, add_left_comm]
    | succ t =>
      simp only [List.getElem?_cons_succ] at h
      rw [List.set_cons_succ, ← Multiset.cons_coe, ← Multiset.cons_coe, Multiset.cons_add, ih h, Multiset.cons_add]

theorem step_cut {t : Nat} {s s' : State A X L} (h : step t s = some s') :
    Relation.CutExpand Sub (s'.threads : Multiset (Code A X L)) (s.threads : Multiset _) := by
  have one : ∀ {c d : Code A X L}, s.threads[t]? = some c → Sub d c →
      Relation.CutExpand Sub ((s.threads.set t d : List _) : Multiset (Code A X L)) (s.threads : Multiset _) := fun {c d} hc hs =>
    ⟨{d}, c, fun e he => by rw [Multiset.mem_singleton.1 he]; exact hs, set_coe hc⟩
  rcases step_cases h with ⟨a, k, hc, rfl⟩ | ⟨a, x, k, hc, rfl⟩ | ⟨l, k, hc, hl, rfl⟩ | ⟨l, k, hc, hl, hl', rfl⟩ | ⟨l, k, hc, hl, rfl⟩ |
    ⟨l, k, hc, hl', hl, rfl⟩ | ⟨c, k, hc, rfl⟩ | ⟨u, k, hc, hu, rfl⟩
  · exact one hc .load
  · exact one hc .store
  · exact one hc .rdlock
  · exact one hc .wrlock
  · exact one hc .unlock
  · exact one hc .unlock
  · refine ⟨{k s.threads.length, c}, .start c k, fun e he => ?_, ?_⟩
    · rcases Multiset.mem_cons.1 he with rfl | he
      · exact .start
      · rw [Multiset.mem_singleton.1 he]; exact .child
    · dsimp only
      rw [← Multiset.coe_add, Multiset.coe_singleton, add_right_comm, set_coe hc, add_assoc]
      rfl
  · exact one hc .join

/-- There are no endless executions. -/
theorem ends (f : Nat → State A X L) (hf : ∀ i, (∃ t, step t (f i) = some (f (i + 1))) ∨ ∀ t, step t (f i) = none) :
    ∃ i, ∀ t, step t (f i) = none := by
  have hw := (sub_wf (A := A) (X := X) (L := L)).cutExpand
  by_contra hno
  push Not at hno
  have hstep : ∀ i, Relation.CutExpand Sub ((f (i + 1)).threads : Multiset (Code A X L)) ((f i).threads : Multiset _) := by
    intro i
    rcases hf i with ⟨t, ht⟩ | h
    · exact step_cut ht
    · obtain ⟨t, ht⟩ := hno i
      exact absurd (h t) ht
  have : ∀ m : Multiset (Code A X L), ∀ i, m = ((f i).threads : Multiset (Code A X L)) → False := by
    intro m
    induction m using hw.induction with
    | _ m ih =>
    rintro i rfl
    exact ih _ (hstep i) (i + 1) rfl
  exact this _ 0 rfl

/-! ## A place guarded by its lock -/

/-- Who has lock `l` for reading and for writing. -/
structure Watched (a : A) (l : L) (s : State A X L) : Prop where
  guard : ∀ {t c}, s.threads[t]? = some c → Guarded a l (decide (t ∈ s.readers l)) (decide (s.writer l = some t)) c
  one : s.writer l ≠ none → s.readers l = []
  inside : (∀ t, t ∈ s.readers l → t < s.threads.length) ∧ ∀ t, s.writer l = some t → t < s.threads.length
  nodup : (s.readers l).Nodup

theorem watched_race {a : A} {l : L} {s : State A X L} (hi : Watched a l s) {t u : Nat} {c d : Code A X L} {w : Bool} (htu : t ≠ u)
    (hc : s.threads[t]? = some c) (hd : s.threads[u]? = some d) (h1 : c.Accesses a true) (h2 : d.Accesses a w) : False := by
  have g1 := hi.guard hc
  have g2 := hi.guard hd
  cases c with
  | store b x k =>
    obtain ⟨rfl, -⟩ := h1
    generalize hr1 : decide (t ∈ s.readers l) = r1 at g1
    generalize hw1 : decide (s.writer l = some t) = w1 at g1
    cases g1 with
    | store q _ =>
    rw [q rfl] at hw1
    have hw := of_decide_eq_true hw1
    generalize hr2 : decide (u ∈ s.readers l) = r2 at g2
    generalize hw2 : decide (s.writer l = some u) = w2 at g2
    have key : r2 = true ∨ w2 = true := by
      cases d with
      | load b' k' =>
        obtain ⟨rfl, -⟩ := h2
        cases g2 with | load q _ => exact q rfl
      | store b' x' k' =>
        obtain ⟨rfl, -⟩ := h2
        cases g2 with | store q _ => exact .inr (q rfl)
      | _ => exact h2.elim
    rcases key with rfl | rfl
    · have := of_decide_eq_true hr2
      rw [hi.one (by rw [hw]; simp)] at this
      cases this
    · have := of_decide_eq_true hw2
      rw [hw] at this
      exact htu (Option.some.inj this)
  | load b k => exact absurd h1.2 (by simp)
  | _ => exact h1.elim

theorem guarded_congr {a : A} {l : L} {r r' w w' : Bool} {c : Code A X L} (h : Guarded a l r w c) (hr : r = r') (hw : w = w') :
    Guarded a l r' w' c := hr ▸ hw ▸ h

theorem watched_step {a : A} {l : L} {s s' : State A X L} {t : Nat} (hi : Watched a l s) (h : step t s = some s') : Watched a l s' := by
  obtain ⟨hg, ho, ⟨hir, hiw⟩, hn⟩ := hi
  rcases step_cases h with ⟨b, k, hc, rfl⟩ | ⟨b, x, k, hc, rfl⟩ | ⟨l', k, hc, hl, rfl⟩ | ⟨l', k, hc, hl, hl', rfl⟩ | ⟨l', k, hc, hl, rfl⟩ |
    ⟨l', k, hc, hl', hl, rfl⟩ | ⟨c, k, hc, rfl⟩ | ⟨u, k, hc, hu, rfl⟩
  all_goals have g1 := hg hc
  all_goals have ht := lt_of_get hc
  · generalize hr1 : decide (t ∈ s.readers l) = r1 at g1
    generalize hw1 : decide (s.writer l = some t) = w1 at g1
    refine ⟨fun {u d} hd => ?_, ho, by simpa using ⟨hir, hiw⟩, hn⟩
    rcases set_get hd with ⟨rfl, rfl⟩ | ⟨-, hd⟩
    · cases g1 with | load _ p => exact guarded_congr (p _) hr1.symm hw1.symm
    · exact hg hd
  · generalize hr1 : decide (t ∈ s.readers l) = r1 at g1
    generalize hw1 : decide (s.writer l = some t) = w1 at g1
    refine ⟨fun {u d} hd => ?_, ho, by simpa using ⟨hir, hiw⟩, hn⟩
    rcases set_get hd with ⟨rfl, rfl⟩ | ⟨-, hd⟩
    · cases g1 with | store _ p => exact guarded_congr p hr1.symm hw1.symm
    · exact hg hd
  · generalize hr1 : decide (t ∈ s.readers l) = r1 at g1
    generalize hw1 : decide (s.writer l = some t) = w1 at g1
    by_cases hll : l = l'
    · subst hll
      have hr0 : t ∉ s.readers l := by
        intro hm
        cases g1 with
        | rdlock _ => exact absurd hm (of_decide_eq_false hr1)
        | rdlock_other hne _ => exact hne rfl
      refine ⟨fun {u d} hd => ?_, fun h' => absurd hl h', ⟨fun u hu => ?_, by simpa using hiw⟩, ?_⟩
      · dsimp only
        simp only [put_same]
        rcases set_get hd with ⟨rfl, rfl⟩ | ⟨hne, hd⟩
        · cases g1 with
          | rdlock p => exact guarded_congr p (by simp) hw1.symm
          | rdlock_other hne _ => exact absurd rfl hne
        · refine guarded_congr (hg hd) ?_ rfl
          simp [hne]
      · dsimp only at hu ⊢
        rw [put_same] at hu
        rw [List.length_set]
        rcases List.mem_cons.1 hu with rfl | hu
        · exact ht
        · exact hir u hu
      · dsimp only
        simp only [put_same]
        exact List.nodup_cons.2 ⟨hr0, hn⟩
    · refine ⟨fun {u d} hd => ?_, ?_, ?_, ?_⟩ <;> dsimp only
      · simp only [put_other _ _ hll]
        rcases set_get hd with ⟨rfl, rfl⟩ | ⟨hne, hd⟩
        · cases g1 with
          | rdlock p => exact absurd rfl hll
          | rdlock_other _ p => exact guarded_congr p hr1.symm hw1.symm
        · exact hg hd
      · simp only [put_other _ _ hll]; exact ho
      · simp only [put_other _ _ hll]; simpa using ⟨hir, hiw⟩
      · simp only [put_other _ _ hll]; exact hn
  · generalize hr1 : decide (t ∈ s.readers l) = r1 at g1
    generalize hw1 : decide (s.writer l = some t) = w1 at g1
    by_cases hll : l = l'
    · subst hll
      refine ⟨fun {u d} hd => ?_, fun _ => hl', ⟨by simpa using hir, fun u hu => ?_⟩, hn⟩
      · dsimp only
        simp only [put_same]
        rcases set_get hd with ⟨rfl, rfl⟩ | ⟨hne, hd⟩
        · cases g1 with
          | wrlock p => exact guarded_congr p hr1.symm (by simp)
          | wrlock_other hne _ => exact absurd rfl hne
        · refine guarded_congr (hg hd) rfl ?_
          rw [hl]
          simp [Ne.symm hne]
      · dsimp only at hu ⊢
        rw [put_same] at hu
        rw [List.length_set, ← Option.some.inj hu]
        exact ht
    · refine ⟨fun {u d} hd => ?_, ?_, ?_, hn⟩ <;> dsimp only
      · simp only [put_other _ _ hll]
        rcases set_get hd with ⟨rfl, rfl⟩ | ⟨hne, hd⟩
        · cases g1 with
          | wrlock p => exact absurd rfl hll
          | wrlock_other _ p => exact guarded_congr p hr1.symm hw1.symm
        · exact hg hd
      · simp only [put_other _ _ hll]; exact ho
      · simp only [put_other _ _ hll]; simpa using ⟨hir, hiw⟩
  · generalize hr1 : decide (t ∈ s.readers l) = r1 at g1
    generalize hw1 : decide (s.writer l = some t) = w1 at g1
    by_cases hll : l = l'
    · subst hll
      have h0 := ho (by rw [hl]; simp)
      refine ⟨fun {u d} hd => ?_, fun h' => ?_, ⟨by simpa using hir, fun u hu => ?_⟩, hn⟩
      · dsimp only
        simp only [put_same]
        rcases set_get hd with ⟨rfl, rfl⟩ | ⟨hne, hd⟩
        · cases g1 with
          | unlock p => exact guarded_congr p (by rw [h0]; simp) (by simp)
          | unlock_other hne _ => exact absurd rfl hne
        · refine guarded_congr (hg hd) rfl ?_
          rw [hl]
          simp [Ne.symm hne]
      · dsimp only at h'
        rw [put_same] at h'
        exact absurd rfl h'
      · dsimp only at hu
        rw [put_same] at hu
        cases hu
    · refine ⟨fun {u d} hd => ?_, ?_, ?_, hn⟩ <;> dsimp only
      · simp only [put_other _ _ hll]
        rcases set_get hd with ⟨rfl, rfl⟩ | ⟨hne, hd⟩
        · cases g1 with
          | unlock p => exact absurd rfl hll
          | unlock_other _ p => exact guarded_congr p hr1.symm hw1.symm
        · exact hg hd
      · simp only [put_other _ _ hll]; exact ho
      · simp only [put_other _ _ hll]; simpa using ⟨hir, hiw⟩
  · generalize hr1 : decide (t ∈ s.readers l) = r1 at g1
    generalize hw1 : decide (s.writer l = some t) = w1 at g1
    by_cases hll : l = l'
    · subst hll
      refine ⟨fun {u d} hd => ?_, fun h' => ?_, ⟨fun u hu => ?_, by simpa using hiw⟩, ?_⟩
      · dsimp only
        simp only [put_same]
        rcases set_get hd with ⟨rfl, rfl⟩ | ⟨hne, hd⟩
        · cases g1 with
          | unlock p => exact guarded_congr p (by simp [hn.mem_erase_iff]) (by simpa using hl')
          | unlock_other hne _ => exact absurd rfl hne
        · refine guarded_congr (hg hd) ?_ rfl
          simp [hn.mem_erase_iff, hne]
      · have := ho h'
        rw [this] at hl
        cases hl
      · dsimp only at hu ⊢
        rw [put_same] at hu
        rw [List.length_set]
        exact hir u (hn.mem_erase_iff.1 hu).2
      · dsimp only
        simp only [put_same]
        exact hn.erase t
    · refine ⟨fun {u d} hd => ?_, ?_, ?_, ?_⟩ <;> dsimp only
      · simp only [put_other _ _ hll]
        rcases set_get hd with ⟨rfl, rfl⟩ | ⟨hne, hd⟩
        · cases g1 with
          | unlock p => exact absurd rfl hll
          | unlock_other _ p => exact guarded_congr p hr1.symm hw1.symm
        · exact hg hd
      · simp only [put_other _ _ hll]; exact ho
      · simp only [put_other _ _ hll]; simpa using ⟨hir, hiw⟩
      · simp only [put_other _ _ hll]; exact hn
  · generalize hr1 : decide (t ∈ s.readers l) = r1 at g1
    generalize hw1 : decide (s.writer l = some t) = w1 at g1
    refine ⟨fun {u d} hd => ?_, ho, ⟨fun u hu => ?_, fun u hu => ?_⟩, hn⟩
    · dsimp only
      rcases start_get hd with ⟨rfl, rfl⟩ | ⟨hne, hd⟩ | ⟨rfl, rfl⟩
      · cases g1 with | start _ p => exact guarded_congr (p _) hr1.symm hw1.symm
      · exact hg hd
      · cases g1 with
        | start q _ =>
        refine guarded_congr q (Eq.symm ?_) (Eq.symm ?_)
        · exact decide_eq_false fun h' => lt_irrefl _ (hir _ h')
        · exact decide_eq_false fun h' => lt_irrefl _ (hiw _ h')
    · rw [List.length_append, List.length_set]
      exact Nat.lt_add_right _ (hir u hu)
    · rw [List.length_append, List.length_set]
      exact Nat.lt_add_right _ (hiw u hu)
  · generalize hr1 : decide (t ∈ s.readers l) = r1 at g1
    generalize hw1 : decide (s.writer l = some t) = w1 at g1
    refine ⟨fun {u d} hd => ?_, ho, by simpa using ⟨hir, hiw⟩, hn⟩
    rcases set_get hd with ⟨rfl, rfl⟩ | ⟨-, hd⟩
    · cases g1 with | join p => exact guarded_congr p hr1.symm hw1.symm
    · exact hg hd

theorem watched_reach {a : A} {l : L} {ts : List (Code A X L)} {m : A → X} {s : State A X L}
    (hp : ∀ c ∈ ts, Guarded a l false false c) (h : Reach (init ts m) s) : Watched a l s := by
  induction h with
  | init =>
    refine ⟨fun {t c} hc => guarded_congr (hp c (List.mem_of_getElem? hc)) (by simp [init]) (by simp [init]), fun h => absurd rfl h,
      ⟨fun t h => (by cases h), fun t h => (by cases h)⟩, List.nodup_nil⟩
  | step t h1 h2 ih => exact watched_step ih h2

/-! ## A thread waiting for one that needs its lock -/

theorem needs_step {l : L} {s s' : State A X L} {t u v : Nat} {k c : Code A X L} (hw : s.writer l = some t) (htu : t ≠ u)
    (hj : s.threads[t]? = some (.join u k)) (hc : s.threads[u]? = some c) (hn : Needs l c) (h : step v s = some s') :
    s'.writer l = some t ∧ s'.threads[t]? = some (.join u k) ∧ ∃ c', s'.threads[u]? = some c' ∧ Needs l c' := by
  have hvt : v ≠ t := by
    rintro rfl
    unfold step at h
    rw [hj] at h
    dsimp only at h
    rw [hc] at h
    cases hn <;> cases h
  have ht := lt_of_get hj
  have hu := lt_of_get hc
  have key : ∀ {d : Code A X L}, (v = u → Needs l d) → (s.threads.set v d)[t]? = some (.join u k) ∧
      ∃ c', (s.threads.set v d)[u]? = some c' ∧ Needs l c' := by
    intro d hd
    rw [set_other (Ne.symm hvt)]
    refine ⟨hj, ?_⟩
    by_cases hvu : u = v
    · subst hvu
      exact ⟨d, set_same hu, hd rfl⟩
    · rw [set_other hvu]
      exact ⟨c, hc, hn⟩
  rcases step_cases h with ⟨b, k', hc', rfl⟩ | ⟨b, x, k', hc', rfl⟩ | ⟨l', k', hc', hl, rfl⟩ | ⟨l', k', hc', hl, hl', rfl⟩ |
    ⟨l', k', hc', hl, rfl⟩ | ⟨l', k', hc', hl', hl, rfl⟩ | ⟨d, k', hc', rfl⟩ | ⟨w, k', hc', hu', rfl⟩
  · refine ⟨hw, key ?_⟩
    rintro rfl
    rw [hc] at hc'; cases hc'; cases hn with | load p => exact p _
  · refine ⟨hw, key ?_⟩
    rintro rfl
    rw [hc] at hc'; cases hc'; cases hn with | store p => exact p
  · refine ⟨hw, key ?_⟩
    rintro rfl
    rw [hc] at hc'; cases hc'
    cases hn with
    | rdlock => rw [hw] at hl; cases hl
    | rdlock_later p => exact p
  · have hll : l ≠ l' := by rintro rfl; rw [hw] at hl; cases hl
    refine ⟨by dsimp only; rw [put_other _ _ hll]; exact hw, key ?_⟩
    rintro rfl
    rw [hc] at hc'; cases hc'
    cases hn with
    | wrlock => exact absurd rfl hll
    | wrlock_later p => exact p
  · have hll : l ≠ l' := by rintro rfl; rw [hw] at hl; exact hvt (Option.some.inj hl).symm
    refine ⟨by dsimp only; rw [put_other _ _ hll]; exact hw, key ?_⟩
    rintro rfl
    rw [hc] at hc'; cases hc'; cases hn with | unlock p => exact p
  · refine ⟨hw, key ?_⟩
    rintro rfl
    rw [hc] at hc'; cases hc'; cases hn with | unlock p => exact p
  · obtain ⟨h1, c', h2, h3⟩ := key (d := k' s.threads.length) (by rintro rfl; rw [hc] at hc'; cases hc'; cases hn with | start p => exact p _)
    refine ⟨hw, ?_, c', ?_, h3⟩ <;> dsimp only
    · rw [List.getElem?_append_left (by simpa using ht)]; exact h1
    · rw [List.getElem?_append_left (by simpa using hu)]; exact h2
  · refine ⟨hw, key ?_⟩
    rintro rfl
    rw [hc] at hc'; cases hc'; cases hn with | join p => exact p

theorem needs_reach {l : L} {s s' : State A X L} {t u : Nat} {k c : Code A X L} (hw : s.writer l = some t) (htu : t ≠ u)
    (hj : s.threads[t]? = some (.join u k)) (hc : s.threads[u]? = some c) (hn : Needs l c) (h : Reach s s') :
    s'.writer l = some t ∧ s'.threads[t]? = some (.join u k) ∧ ∃ c', s'.threads[u]? = some c' ∧ Needs l c' := by
  induction h with
  | init => exact ⟨hw, hj, c, hc, hn⟩
  | step v h1 h2 ih =>
    obtain ⟨a, b, c', d, e⟩ := ih
    exact needs_step a htu b d e h2

end Cru.Pool
