import Verif.Model.PoolInduce
import Verif.Spec.Pool
import Verif.Spec.Induce
import Verif.Proofs.Induce
import Verif.Proofs.Pool

/-!
# The invariant of induction in terms of memory
-/

namespace Cru.PoolInduce

open Cru.Pool Cru.Induce

variable {N V L A : Type} [DecidableEq N]

/-- The lock a worker has. -/
inductive Hold where
  | free
  | reading (p : Nat)
  | writing

/-- What a worker is entitled to: the lock it has, the nodes it knows to be visited, what's in its own set, and a node whose value it has
stored. -/
structure Ghost (N : Type) where
  hold : Hold
  known : N → Prop
  mine : Option (List N)
  fresh : Option N

/-- After a set is loaded. -/
def Ghost.learn (own : N → Nat) (t p : Nat) (S : List N) (γ : Ghost N) : Ghost N :=
  { γ with known := fun n => γ.known n ∨ n ∈ S ∧ own n = p, mine := if p = t then some S else γ.mine }

section
variable (own : N → Nat) (d : Inducer V L A) (vertex : N → V) (arcs : N → List (L × N)) (b : N) (t : Nat)

/-- What worker `t` is entitled to do. -/
inductive Safe : Ghost N → Thread N A → Prop
  | done {γ} : Safe γ .done
  | loadDisabled {γ p k} : (p = t ∨ γ.hold = .reading p) → (∀ x, Safe γ (k x)) → Safe γ (.load (.disabled p) k)
  | loadVisited {γ p k} : (p = t ∨ γ.hold = .reading p) → (∀ x : Val N A, (p = t → ∀ S, γ.mine = some S → x.set = S) →
      Safe (γ.learn own t p x.set) (k x)) → Safe γ (.load (.visited p) k)
  | loadAcc {γ n k} : γ.known n → (∀ a, Has d vertex arcs n a → Safe γ (k (.value a))) → Safe γ (.load (.acc n) k)
  | storeAcc {γ n a S k} : own n = t → γ.mine = some S → n ∉ S → Has d vertex arcs n a → Safe { γ with fresh := some n } k →
      Safe γ (.store (.acc n) (.value a) k)
  | storeVisited {γ n S k} : γ.hold = .writing → γ.mine = some S → γ.fresh = some n → Safe { γ with mine := some (S ++ [n]) } k →
      Safe γ (.store (.visited t) (.nodes (S ++ [n])) k)
  | storeDisabled {γ x k} : γ.hold = .writing → Safe γ k → Safe γ (.store (.disabled t) x k)
  | storeResult {γ x k} : (∀ a, x = .value a → Has d vertex arcs b a) → Safe γ k → Safe γ (.store (.result t) x k)
  | rdlock {γ p k} : γ.hold = .free → Safe { γ with hold := .reading p } k → Safe γ (.rdlock p k)
  | wrlock {γ k} : γ.hold = .free → Safe { γ with hold := .writing } k → Safe γ (.wrlock t k)
  | unlockReading {γ p k} : γ.hold = .reading p → Safe { γ with hold := .free } k → Safe γ (.unlock p k)
  | unlockWriting {γ k} : γ.hold = .writing → Safe { γ with hold := .free } k → Safe γ (.unlock t k)

/-- What that means about the state. -/
structure Rel (γ : Ghost N) (s : State (Loc N) (Val N A) Nat) : Prop where
  reading : ∀ p, γ.hold = .reading p → t ∈ s.readers p
  writing : γ.hold = .writing → s.writer t = some t
  known : ∀ n, γ.known n → n ∈ (s.mem (.visited (own n))).set
  mine : ∀ S, γ.mine = some S → (s.mem (.visited t)).set = S
  fresh : ∀ n, γ.fresh = some n → own n = t ∧ ∃ a, s.mem (.acc n) = .value a ∧ Has d vertex arcs n a

/-- The invariant. -/
structure Whole (γ : Nat → Ghost N) (s : State (Loc N) (Val N A) Nat) : Prop where
  safe : ∀ t c, s.threads[t]? = some c → Safe own d vertex arcs b t (γ t) c ∧ Rel own d vertex arcs t (γ t) s
  excl : ∀ l u, s.writer l = some u → s.readers l = []
  done : ∀ p n, n ∈ (s.mem (.visited p)).set → own n = p ∧ ∃ a, s.mem (.acc n) = .value a ∧ Has d vertex arcs n a
  result : ∀ p a, s.mem (.result p) = .value a → Has d vertex arcs b a

end

variable {own : N → Nat} {nil : A} {d : Inducer V L A} {vertex : N → V} {arcs : N → List (L × N)} {b : N} {t : Nat}

/-! ## The code is entitled to what it does -/

theorem safe_look {γ : Ghost N} (es : List (L × N)) {k : List (L × A) → Thread N A} (hk : ∀ e ∈ es, γ.known e.2)
    (h : ∀ val : N → A, (∀ e ∈ es, Has d vertex arcs e.2 (val e.2)) → Safe own d vertex arcs b t γ (k (es.map fun e => (e.1, val e.2)))) :
    Safe own d vertex arcs b t γ (look nil es k) := by
  induction es generalizing k with
  | nil => exact h (fun _ => nil) (fun _ he => (by cases he))
  | cons e es ih =>
    refine .loadAcc (hk e (by simp)) fun a ha => ih (fun e he => hk e (by simp [he])) fun val hv => ?_
    by_cases hm : ∃ e' ∈ es, e'.2 = e.2
    · obtain ⟨e', h1, h2⟩ := hm
      have : val e.2 = a := h2 ▸ (hv e' h1).unique (h2 ▸ ha)
      have h3 := h val fun e'' he => by
        rcases List.mem_cons.1 he with rfl | he
        · rw [this]; exact ha
        · exact hv _ he
      rw [List.map_cons, this] at h3
      exact h3
    · have h3 := h (Function.update val e.2 a) fun e'' he => by
        rcases List.mem_cons.1 he with rfl | he
        · rw [Function.update_self]; exact ha
        · rw [Function.update_of_ne (fun e => hm ⟨_, he, e⟩)]; exact hv _ he
      rw [List.map_cons, Function.update_self] at h3
      have : (es.map fun e' => (e'.1, Function.update val e.2 a e'.2)) = es.map fun e' => (e'.1, val e'.2) :=
        List.map_congr_left fun e' he => by rw [Function.update_of_ne (fun e => hm ⟨_, he, e⟩)]
      rw [this] at h3
      exact h3

theorem safe_disable {γ : Ghost N} {k : Thread N A} (hf : γ.hold = .free) (h : Safe own d vertex arcs b t γ k) :
    Safe own d vertex arcs b t γ (disable t k) := by
  refine .wrlock hf (.storeDisabled rfl (.unlockWriting rfl ?_))
  obtain ⟨a, k, m, f⟩ := γ
  cases hf
  exact h

theorem safe_record {γ : Ghost N} {n : N} {a : A} {S : List N} {f : Fault} {k : Thread N A} (hf : γ.hold = .free) (hn : own n = t)
    (hm : γ.mine = some S) (hS : n ∉ S) (ha : Has d vertex arcs n a) (h : ∀ γ : Ghost N, γ.hold = .free → Safe own d vertex arcs b t γ k) :
    Safe own d vertex arcs b t γ (record t n a f k) := by
  refine .storeAcc hn hm hS ha (.wrlock hf (.loadVisited (.inl rfl) fun x _ => ?_))
  split_ifs with hff
  · exact .unlockWriting rfl (safe_disable rfl (h _ rfl))
  · exact .storeVisited rfl (by simp [Ghost.learn]) rfl (.unlockWriting rfl (h _ rfl))

theorem safe_allVisited (os : List N) : ∀ {γ : Ghost N} {S : List N} {k : Readiness → Thread N A}, γ.hold = .free → γ.mine = some S → 
    (∀ γ' : Ghost N, γ'.hold = .free → (∀ r, r ≠ .now → Safe own d vertex arcs b t γ' (k r)) ∧
      (γ'.mine = some S → (∀ n, γ.known n → γ'.known n) → (∀ o ∈ os, γ'.known o) → Safe own d vertex arcs b t γ' (k .now))) →
    Safe own d vertex arcs b t γ (allVisited own t os k) := by
  induction os with
  | nil => exact fun hf hm h => (h _ hf).2 hm (fun _ h => h) (fun _ h => (by cases h))
  | cons o os ih =>
    intro γ S k hf hm h
    unfold allVisited
    have cont : ∀ (γ' : Ghost N), γ'.hold = .free → γ'.mine = some S → (∀ n, γ.known n → γ'.known n) → (γ'.known o) →
        Safe own d vertex arcs b t γ' (allVisited own t os k) := fun γ' h1 h2 h3 h4 =>
      ih h1 h2 fun γ'' g1 => ⟨(h γ'' g1).1, fun g2 g3 g4 => (h γ'' g1).2 g2 (fun n hn => g3 n (h3 n hn)) fun o' ho' => by
        rcases List.mem_cons.1 ho' with rfl | ho'
        · exact g3 _ h4
        · exact g4 _ ho'⟩
    split_ifs with hot
    · refine .loadDisabled (.inl hot) fun x => ?_
      split_ifs with hx
      · exact (h γ hf).1 _ (by decide)
      · refine .loadVisited (.inl hot) fun y hy => ?_
        split_ifs with ho
        · refine cont _ hf ?_ (fun n hn => .inl hn) (.inr ⟨ho, rfl⟩)
          simp only [Ghost.learn, hot, if_true, hy hot S hm]
        · exact (h _ (by exact hf)).1 _ (by decide)
    · refine .rdlock hf (.loadDisabled (.inr rfl) fun x => ?_)
      split_ifs with hx
      · exact .unlockReading rfl ((h _ (by rfl)).1 _ (by decide))
      · refine .loadVisited (.inr rfl) fun y _ => .unlockReading rfl ?_
        split_ifs with ho
        · refine cont _ rfl ?_ (fun n hn => .inl hn) (.inr ⟨ho, rfl⟩)
          simp only [Ghost.learn, hot, if_false, hm]
        · exact (h _ (by rfl)).1 _ (by decide)

theorem safe_arrivals (ps : List (N × Fault)) (hp : ∀ q ∈ ps, own q.1 = t) : ∀ (γ : Ghost N) (r : Option A), γ.hold = .free →
    (∀ a, r = some a → Has d vertex arcs b a) → Safe own d vertex arcs b t γ (arrivals own nil d vertex arcs b t ps r) := by
  induction ps with
  | nil =>
    intro γ r _ hr
    refine .storeResult (fun a ha => ?_) .done
    cases r with
    | none => cases ha
    | some a' => cases ha; exact hr _ rfl
  | cons q ps ih =>
    obtain ⟨n, f⟩ := q
    intro γ r hf hr
    have ih := ih fun q hq => hp q (by simp [hq])
    have hn : own n = t := hp (n, f) (by simp)
    unfold arrivals
    refine .loadDisabled (.inl rfl) fun x => ?_
    by_cases hx : x.on = true
    · rw [if_pos hx]
      exact ih _ _ hf hr
    by_cases hb : f = .before
    · rw [if_neg hx, if_pos hb]
      exact safe_disable hf (ih _ _ hf hr)
    · rw [if_neg hx, if_neg hb]
      refine .loadVisited (.inl rfl) fun y _ => ?_
      by_cases hy : n ∈ y.set
      · rw [if_pos hy]
        exact ih _ _ hf hr
      · rw [if_neg hy]
        refine safe_allVisited (S := y.set) _ hf (by simp [Ghost.learn]) fun γ' hf' => ⟨fun r' hr' => ?_, fun hm _ hk => ?_⟩
        · cases r' with
          | never => exact safe_disable hf' (ih _ _ hf' hr)
          | later => exact ih _ _ hf' hr
          | now => exact absurd rfl hr'
        · dsimp only
          by_cases hi : r.isSome = true
          · rw [if_pos hi]
            exact safe_disable hf' (ih _ _ hf' hr)
          · rw [if_neg hi]
            refine safe_look _ (fun e he => hk _ (List.mem_map_of_mem he)) fun val hv => ?_
            cases he : evaluate d (vertex n) ((arcs n).map fun e => (e.1, val e.2)) with
            | error e => exact safe_disable hf' (ih _ _ hf' hr)
            | ok a =>
              have ha : Has d vertex arcs n a := .intro n a val hv (by rw [← evaluate_eq]; exact he)
              dsimp only
              split_ifs with hnb hfa
              · exact safe_disable hf' (ih _ _ hf' hr)
              · exact ih _ _ hf' fun a' e => by cases e; exact hnb ▸ ha
              · exact safe_record hf' hn hm hy ha fun γ hf => ih _ _ hf hr

/-! ## Each step keeps the invariant -/

section
variable {γ : Nat → Ghost N} {s s' : State (Loc N) (Val N A) Nat}

/-- What holds of one worker still does if others do something, provided that sets only get larger, its own isn't touched, nor are
accumulators of its nodes, nor are its locks. -/
theorem rel_mono {δ : Ghost N} (h : Rel own d vertex arcs t δ s) (h1 : ∀ p, t ∈ s.readers p → t ∈ s'.readers p)
    (h2 : s.writer t = some t → s'.writer t = some t) (h3 : ∀ p n, n ∈ (s.mem (.visited p)).set → n ∈ (s'.mem (.visited p)).set)
    (h4 : s'.mem (.visited t) = s.mem (.visited t)) (h5 : ∀ n, own n = t → s'.mem (.acc n) = s.mem (.acc n)) :
    Rel own d vertex arcs t δ s' where
  reading := fun p hp => h1 p (h.reading p hp)
  writing := fun hw => h2 (h.writing hw)
  known := fun n hn => h3 _ _ (h.known n hn)
  mine := fun S hS => by rw [h4]; exact h.mine S hS
  fresh := fun n hn => by
    obtain ⟨g1, g2⟩ := h.fresh n hn
    rw [h5 n g1]
    exact ⟨g1, g2⟩

/-- Put together what holds after a step of thread `t`. -/
theorem whole_set {c : Thread N A} {δ : Ghost N} (hw : Whole own d vertex arcs b γ s) (hth : s'.threads = s.threads.set t c)
    (hc : Safe own d vertex arcs b t δ c) (hr : Rel own d vertex arcs t δ s')
    (h1 : ∀ u p, u ≠ t → u ∈ s.readers p → u ∈ s'.readers p) (h2 : ∀ u, u ≠ t → s.writer u = some u → s'.writer u = some u)
    (h3 : ∀ p n, n ∈ (s.mem (.visited p)).set → n ∈ (s'.mem (.visited p)).set) (h4 : ∀ u, u ≠ t → s'.mem (.visited u) = s.mem (.visited u))
    (h5 : ∀ n, own n ≠ t → s'.mem (.acc n) = s.mem (.acc n)) (h6 : ∀ l u, s'.writer l = some u → s'.readers l = [])
    (h7 : ∀ p n, n ∈ (s'.mem (.visited p)).set → own n = p ∧ ∃ a, s'.mem (.acc n) = .value a ∧ Has d vertex arcs n a)
    (h8 : ∀ p a, s'.mem (.result p) = .value a → Has d vertex arcs b a) : Whole own d vertex arcs b (Function.update γ t δ) s' where
  safe := fun u c' hc' => by
    rw [hth, List.getElem?_set] at hc'
    by_cases hu : t = u
    · subst hu
      rw [Function.update_self]
      split_ifs at hc' with hl
      · cases hc'
        exact ⟨hc, hr⟩
      · simp at hl hc'
    · rw [if_neg hu] at hc'
      rw [Function.update_of_ne (Ne.symm hu)]
      obtain ⟨g1, g2⟩ := hw.safe u c' hc'
      exact ⟨g1, rel_mono g2 (fun p => h1 u p (Ne.symm hu)) (h2 u (Ne.symm hu)) h3 (h4 u (Ne.symm hu)) fun n hn => h5 n (fun e => hu (e.symm.trans hn))⟩
  excl := h6
  done := h7
  result := h8

theorem whole_step (hw : Whole own d vertex arcs b γ s) (h : step t s = some s') : ∃ γ', Whole own d vertex arcs b γ' s' := by
  cases hc : s.threads[t]? with
  | none => simp [step, hc] at h
  | some c =>
    obtain ⟨hs, hr⟩ := hw.safe t c hc
    have key : ∀ δ, γ t = δ → ∃ γ', Whole own d vertex arcs b γ' s' := by
      intro δ hδ
      rw [hδ] at hs hr
      cases hs with
      | done => simp [step, hc] at h
      | loadDisabled _ hk =>
        simp only [step, hc, Option.some.injEq] at h
        subst h
        exact ⟨_, whole_set hw rfl (hk _) (rel_mono hr (fun _ h => h) (fun h => h) (fun _ _ h => h) rfl fun _ _ => rfl) (fun _ _ _ h => h) (fun _ _ h => h)
          (fun _ _ h => h) (fun _ _ => rfl) (fun _ _ => rfl) hw.excl hw.done hw.result⟩
      | @loadVisited _ p k _ hk =>
        simp only [step, hc, Option.some.injEq] at h
        subst h
        refine ⟨_, whole_set hw rfl (hk _ ?_) ⟨hr.reading, hr.writing, fun n hn => ?_, fun S hS => ?_, hr.fresh⟩ (fun _ _ _ h => h) (fun _ _ h => h)
          (fun _ _ h => h) (fun _ _ => rfl) (fun _ _ => rfl) hw.excl hw.done hw.result⟩
        · rintro rfl S hS
          exact hr.mine S hS
        · rcases hn with hn | ⟨hn, rfl⟩
          · exact hr.known n hn
          · exact hn
        · unfold Ghost.learn at hS
          dsimp only at hS ⊢
          split_ifs at hS with hp
          · cases hS; rw [hp]
          · exact hr.mine S hS
      | @loadAcc _ n k hn hk =>
        simp only [step, hc, Option.some.injEq] at h
        subst h
        obtain ⟨-, a, h1, h2⟩ := hw.done _ _ (hr.known n hn)
        rw [h1]
        exact ⟨_, whole_set hw rfl (hk a h2) (rel_mono hr (fun _ h => h) (fun h => h) (fun _ _ h => h) rfl fun _ _ => rfl) (fun _ _ _ h => h) (fun _ _ h => h)
          (fun _ _ h => h) (fun _ _ => rfl) (fun _ _ => rfl) hw.excl hw.done hw.result⟩
      | @storeAcc _ n a S k hn hm hS ha hk =>
        simp only [step, hc, Option.some.injEq] at h
        subst h
        have hv : ∀ p, put s.mem (.acc n) (.value a) (.visited p) = s.mem (.visited p) := fun p => put_other _ _ (by simp)
        have hres : ∀ p, put s.mem (.acc n) (.value a) (.result p) = s.mem (.result p) := fun p => put_other _ _ (by simp)
        have hacc : ∀ n', n' ≠ n → put s.mem (.acc n) (.value a) (.acc n') = s.mem (.acc n') := fun n' h => put_other _ _ (by simpa)
        have hself : put s.mem (.acc n) (.value a) (.acc n) = .value a := if_pos rfl
        refine ⟨_, whole_set hw rfl hk ⟨hr.reading, hr.writing, fun n' hn' => ?_, fun S' hS' => ?_, fun n' hn' => ?_⟩ (fun _ _ _ h => h) (fun _ _ h => h)
          (fun p n' h => ?_) (fun u _ => hv u) (fun n' hn' => hacc n' fun e => hn' (e ▸ hn)) hw.excl (fun p n' hn' => ?_) fun p a' ha' => ?_⟩
        · dsimp only
          rw [hv]
          exact hr.known n' hn'
        · dsimp only
          rw [hv]
          exact hr.mine S' hS'
        · dsimp only at hn' ⊢
          cases hn'
          exact ⟨hn, a, hself, ha⟩
        · dsimp only
          rw [hv]
          exact h
        · dsimp only at hn' ⊢
          rw [hv] at hn'
          obtain ⟨g1, g2⟩ := hw.done p n' hn'
          refine ⟨g1, ?_⟩
          by_cases e : n' = n
          · exfalso
            rw [e] at hn' g1
            rw [← g1, hn, hr.mine S hm] at hn'
            exact hS hn'
          · rw [hacc n' e]
            exact g2
        · dsimp only at ha'
          rw [hres] at ha'
          exact hw.result p a' ha'
      | @storeVisited _ n S k hh hm hf hk =>
        simp only [step, hc, Option.some.injEq] at h
        subst h
        have hv : ∀ p, p ≠ t → put s.mem (.visited t) (.nodes (S ++ [n])) (.visited p) = s.mem (.visited p) := fun p h => put_other _ _ (by simpa)
        have hres : ∀ p, put s.mem (.visited t) (.nodes (S ++ [n])) (.result p) = s.mem (.result p) := fun p => put_other _ _ (by simp)
        have hacc : ∀ n', put s.mem (.visited t) (.nodes (S ++ [n])) (.acc n') = s.mem (.acc n') := fun n' => put_other _ _ (by simp)
        have hself : put s.mem (.visited t) (.nodes (S ++ [n])) (.visited t) = .nodes (S ++ [n]) := if_pos rfl
        have hmono : ∀ p n', n' ∈ (s.mem (.visited p)).set → n' ∈ (put s.mem (.visited t) (.nodes (S ++ [n])) (.visited p)).set := by
          intro p n' hn'
          by_cases e : p = t
          · subst e
            rw [hr.mine S hm] at hn'
            rw [hself]
            exact List.mem_append_left _ hn'
          · rw [hv p e]
            exact hn'
        refine ⟨_, whole_set hw rfl hk ⟨hr.reading, hr.writing, fun n' hn' => hmono _ _ (hr.known n' hn'), fun S' hS' => ?_, fun n' hn' => ?_⟩
          (fun _ _ _ h => h) (fun _ _ h => h) hmono (fun u hu => hv u hu) (fun n' _ => hacc n') hw.excl (fun p n' hn' => ?_) fun p a' ha' => ?_⟩
        · dsimp only at hS' ⊢
          cases hS'
          rw [hself]
          rfl
        · dsimp only at hn' ⊢
          rw [hacc]
          exact hr.fresh n' hn'
        · dsimp only at hn' ⊢
          rw [hacc]
          by_cases e : p = t
          · subst e
            rw [hself] at hn'
            rcases List.mem_append.1 hn' with hn' | hn'
            · exact hw.done p n' (by rw [hr.mine S hm]; exact hn')
            · rw [List.mem_singleton.1 hn']
              exact hr.fresh n hf
          · rw [hv p e] at hn'
            exact hw.done p n' hn'
        · dsimp only at ha'
          rw [hres] at ha'
          exact hw.result p a' ha'
      | @storeDisabled _ x k hh hk =>
        simp only [step, hc, Option.some.injEq] at h
        subst h
        have hv : ∀ p, put s.mem (.disabled t) x (.visited p) = s.mem (.visited p) := fun p => put_other _ _ (by simp)
        have hres : ∀ p, put s.mem (.disabled t) x (.result p) = s.mem (.result p) := fun p => put_other _ _ (by simp)
        have hacc : ∀ n', put s.mem (.disabled t) x (.acc n') = s.mem (.acc n') := fun n' => put_other _ _ (by simp)
        refine ⟨_, whole_set hw rfl hk (rel_mono hr (fun _ h => h) (fun h => h) (fun p n' h => ?_) (hv t) fun n' _ => hacc n') (fun _ _ _ h => h)
          (fun _ _ h => h) (fun p n' h => ?_) (fun u _ => hv u) (fun n' _ => hacc n') hw.excl (fun p n' hn' => ?_) fun p a' ha' => ?_⟩
        · dsimp only; rw [hv]; exact h
        · dsimp only; rw [hv]; exact h
        · dsimp only at hn' ⊢
          rw [hv] at hn'
          rw [hacc]
          exact hw.done p n' hn'
        · dsimp only at ha'
          rw [hres] at ha'
          exact hw.result p a' ha'
      | @storeResult _ x k hx hk =>
        simp only [step, hc, Option.some.injEq] at h
        subst h
        have hv : ∀ p, put s.mem (.result t) x (.visited p) = s.mem (.visited p) := fun p => put_other _ _ (by simp)
        have hacc : ∀ n', put s.mem (.result t) x (.acc n') = s.mem (.acc n') := fun n' => put_other _ _ (by simp)
        refine ⟨_, whole_set hw rfl hk (rel_mono hr (fun _ h => h) (fun h => h) (fun p n' h => ?_) (hv t) fun n' _ => hacc n') (fun _ _ _ h => h)
          (fun _ _ h => h) (fun p n' h => ?_) (fun u _ => hv u) (fun n' _ => hacc n') hw.excl (fun p n' hn' => ?_) fun p a' ha' => ?_⟩
        · dsimp only; rw [hv]; exact h
        · dsimp only; rw [hv]; exact h
        · dsimp only at hn' ⊢
          rw [hv] at hn'
          rw [hacc]
          exact hw.done p n' hn'
        · dsimp only at ha'
          by_cases e : p = t
          · subst e
            rw [show put s.mem (.result p) x (.result p) = x from if_pos rfl] at ha'
            exact hx a' ha'
          · rw [put_other _ _ (by simpa)] at ha'
            exact hw.result p a' ha'
      | @rdlock _ p k hh hk =>
        simp only [step, hc] at h
        split_ifs at h with hp
        cases h
        have hin : ∀ u q, u ∈ s.readers q → u ∈ put s.readers p (t :: s.readers p) q := by
          intro u q hu
          by_cases e : q = p
          · subst e
            rw [show put s.readers q (t :: s.readers q) q = _ from if_pos rfl]
            exact List.mem_cons_of_mem _ hu
          · rw [put_other _ _ e]
            exact hu
        refine ⟨_, whole_set hw rfl hk ⟨fun q hq => ?_, fun h => (by cases h), hr.known, hr.mine, hr.fresh⟩ (fun u q _ => hin u q) (fun _ _ h => h)
          (fun _ _ h => h) (fun _ _ => rfl) (fun _ _ => rfl) (fun l u hu => ?_) hw.done hw.result⟩
        · cases hq
          dsimp only
          rw [show put s.readers p (t :: s.readers p) p = _ from if_pos rfl]
          exact List.mem_cons_self
        · dsimp only at hu ⊢
          rw [put_other _ _ (by rintro rfl; rw [hp] at hu; cases hu)]
          exact hw.excl l u hu
      | @wrlock _ k hh hk =>
        simp only [step, hc] at h
        split_ifs at h with hp
        cases h
        refine ⟨_, whole_set hw rfl hk ⟨fun q hq => (by cases hq), fun _ => if_pos rfl, hr.known, hr.mine, hr.fresh⟩ (fun _ _ _ h => h)
          (fun u hu h => ?_) (fun _ _ h => h) (fun _ _ => rfl) (fun _ _ => rfl) (fun l u hu => ?_) hw.done hw.result⟩
        · dsimp only
          rw [put_other _ _ hu]
          exact h
        · dsimp only at hu ⊢
          by_cases e : l = t
          · rw [e]; exact hp.2
          · rw [put_other _ _ e] at hu
            exact hw.excl l u hu
      | @unlockReading _ p k hh hk =>
        have h1 := hr.reading p hh
        have h2 : s.writer p ≠ some t := fun e => by rw [hw.excl p t e] at h1; cases h1
        simp only [step, hc, if_neg h2, if_pos h1, Option.some.injEq] at h
        subst h
        refine ⟨_, whole_set hw rfl hk ⟨fun q hq => (by cases hq), fun h => (by cases h), hr.known, hr.mine, hr.fresh⟩ (fun u q hu hq => ?_)
          (fun _ _ h => h) (fun _ _ h => h) (fun _ _ => rfl) (fun _ _ => rfl) (fun l u hu => ?_) hw.done hw.result⟩
        · dsimp only
          by_cases e : q = p
          · subst e
            rw [show put s.readers q ((s.readers q).erase t) q = _ from if_pos rfl]
            exact (List.mem_erase_of_ne hu).2 hq
          · rw [put_other _ _ e]
            exact hq
        · dsimp only at hu ⊢
          rw [put_other _ _ (by rintro rfl; rw [hw.excl _ u hu] at h1; cases h1)]
          exact hw.excl l u hu
      | @unlockWriting _ k hh hk =>
        have h1 := hr.writing hh
        simp only [step, hc, if_pos h1, Option.some.injEq] at h
        subst h
        refine ⟨_, whole_set hw rfl hk ⟨fun q hq => (by cases hq), fun h => (by cases h), hr.known, hr.mine, hr.fresh⟩ (fun _ _ _ h => h)
          (fun u hu h => ?_) (fun _ _ h => h) (fun _ _ => rfl) (fun _ _ => rfl) (fun l u hu => ?_) hw.done hw.result⟩
        · dsimp only
          rw [put_other _ _ hu]
          exact h
        · dsimp only at hu ⊢
          by_cases e : l = t
          · subst e
            rw [show put s.writer l none l = none from if_pos rfl] at hu
            cases hu
          · rw [put_other _ _ e] at hu
            exact hw.excl l u hu
    exact key _ rfl

theorem whole_reach {s₀ : State (Loc N) (Val N A) Nat} (h₀ : ∃ γ, Whole own d vertex arcs b γ s₀) (h : Reach s₀ s) :
    ∃ γ, Whole own d vertex arcs b γ s := by
  induction h with
  | init => exact h₀
  | step t _ hs ih =>
    obtain ⟨γ, hw⟩ := ih
    exact whole_step hw hs

/-- What a thread about to access something is entitled to. -/
theorem safe_access {δ : Ghost N} {c : Thread N A} {a : Loc N} {w : Bool} (h : Safe own d vertex arcs b t δ c) (ha : c.Accesses a w) :
    (∃ p, (a = .disabled p ∨ a = .visited p) ∧ (w = true ∧ p = t ∧ δ.hold = .writing ∨ w = false ∧ (p = t ∨ δ.hold = .reading p))) ∨
    (∃ n, a = .acc n ∧ (w = true ∧ own n = t ∧ (∃ S, δ.mine = some S ∧ n ∉ S) ∨ w = false ∧ δ.known n)) ∨ a = .result t := by
  cases h with
  | loadDisabled hp _ => obtain ⟨rfl, rfl⟩ := ha; exact .inl ⟨_, .inl rfl, .inr ⟨rfl, hp⟩⟩
  | loadVisited hp _ => obtain ⟨rfl, rfl⟩ := ha; exact .inl ⟨_, .inr rfl, .inr ⟨rfl, hp⟩⟩
  | loadAcc hn _ => obtain ⟨rfl, rfl⟩ := ha; exact .inr (.inl ⟨_, rfl, .inr ⟨rfl, hn⟩⟩)
  | storeAcc h1 h2 h3 _ _ => obtain ⟨rfl, rfl⟩ := ha; exact .inr (.inl ⟨_, rfl, .inl ⟨rfl, h1, _, h2, h3⟩⟩)
  | storeVisited h1 _ _ _ => obtain ⟨rfl, rfl⟩ := ha; exact .inl ⟨_, .inr rfl, .inl ⟨rfl, rfl, h1⟩⟩
  | storeDisabled h1 _ => obtain ⟨rfl, rfl⟩ := ha; exact .inl ⟨_, .inl rfl, .inl ⟨rfl, rfl, h1⟩⟩
  | storeResult _ _ => obtain ⟨rfl, rfl⟩ := ha; exact .inr (.inr rfl)
  | done => exact ha.elim
  | rdlock _ _ => exact ha.elim
  | wrlock _ _ => exact ha.elim
  | unlockReading _ _ => exact ha.elim
  | unlockWriting _ _ => exact ha.elim

theorem no_race (hw : Whole own d vertex arcs b γ s) : ¬ Race s := by
  rintro ⟨t, u, c, c', a, w, htu, hc, hc', h1, h2⟩
  obtain ⟨s1, r1⟩ := hw.safe t c hc
  obtain ⟨s2, r2⟩ := hw.safe u c' hc'
  have hb : ∀ p, (γ t).hold = .writing → p = t → (p = u ∨ (γ u).hold = .reading p) → False := by
    rintro p g1 rfl (rfl | g2)
    · exact htu rfl
    · have := r2.reading p g2
      rw [hw.excl _ _ (r1.writing g1)] at this
      cases this
  rcases safe_access s1 h1 with ⟨p, ha, ⟨-, hp, g⟩ | ⟨hf, -⟩⟩ | ⟨n, ha, ⟨-, hn, S, hS, hnS⟩ | ⟨hf, -⟩⟩ | ha
  · rcases safe_access s2 h2 with ⟨q, ha', ⟨-, hq, -⟩ | ⟨-, hq⟩⟩ | ⟨n, rfl, -⟩ | rfl
    · have : p = q := by rcases ha with rfl | rfl <;> rcases ha' with e | e <;> cases e <;> rfl
      exact htu (hp.symm.trans (this.trans hq))
    · have : p = q := by rcases ha with rfl | rfl <;> rcases ha' with e | e <;> cases e <;> rfl
      exact hb p g hp (this ▸ hq)
    · rcases ha with e | e <;> cases e
    · rcases ha with e | e <;> cases e
  · cases hf
  · subst ha
    rcases safe_access s2 h2 with ⟨q, e | e, -⟩ | ⟨n', e, ⟨-, hn', -⟩ | ⟨-, hk⟩⟩ | e
    · cases e
    · cases e
    · cases e; exact htu (hn.symm.trans hn')
    · cases e
      have := r2.known _ hk
      rw [hn, r1.mine S hS] at this
      exact hnS this
    · cases e
  · cases hf
  · subst ha
    rcases safe_access s2 h2 with ⟨q, e | e, -⟩ | ⟨n', e, -⟩ | e
    · cases e
    · cases e
    · cases e
    · cases e; exact htu rfl

end

end Cru.PoolInduce
