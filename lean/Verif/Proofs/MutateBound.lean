import Verif.Proofs.MutateOrder
import Verif.Proofs.Rover
import Verif.Proofs.Trav

/-! # Where mutation starts -/

namespace Cru.Mutate

open Net

variable {n : Nat} {N V L : Type} [DecidableEq N] {k : Kernel V L} {p : Plan} {inn : N → List (L × N)} {reach : Fin n → Option (List N)}
  {hash : N → Nat} {hn : 0 < n}

omit [DecidableEq N] in
theorem Bounds.poll_eq (s : Bounds n N L) (i : Fin n) :
    ∃ sample stop, s.poll i = { s with sample := sample, stop := stop } ∧
      (∀ j, j ≠ i → stop j = s.stop j) ∧ (stop i = false → s.stop i = false) ∧
      (s.killed = 0 → (∀ j, s.stop j = false) → ∀ j, stop j = false) := by
  unfold Bounds.poll
  by_cases h : s.stop i = true
  · rw [if_pos h]
    exact ⟨s.sample, s.stop, rfl, fun _ _ => rfl, fun h => h, fun _ h => h⟩
  · rw [if_neg h]
    refine ⟨_, _, rfl, fun j hj => Function.update_of_ne hj _ _, fun _ => by simpa using h, fun hk h j => ?_⟩
    by_cases hj : j = i
    · subst hj; rw [Function.update_self, hk]; simp
    · rw [Function.update_of_ne hj]; exact h j

/-- Not left out. -/
def Near (reach : Fin n → Option (List N)) (i : Fin n) (m : N) : Prop := ∀ l, reach i = some l → m ∈ l

theorem bound_eq (i : Fin n) (s : Bounds n N L) (m : N) :
    ∃ sv far, bound k p inn reach i s m = { s with survivors := sv, far := far } ∧
      (Near reach i m → far = s.far ∧ sv = if begins k p (s.out m) (inn m) then Function.update s.survivors i (m :: s.survivors i) else s.survivors) ∧
      (¬ Near reach i m → far = Function.update s.far m true ∧ sv = s.survivors) := by
  unfold bound Near
  rcases hr : reach i with _ | l
  · dsimp only
    split_ifs with c
    · exact ⟨_, _, rfl, fun _ => ⟨rfl, rfl⟩, fun h => absurd (fun l h => (by cases h)) h⟩
    · exact ⟨_, _, rfl, fun _ => ⟨rfl, rfl⟩, fun h => absurd (fun l h => (by cases h)) h⟩
  · dsimp only
    by_cases hm : m ∈ l
    · have hnear : ∀ l', some l = some l' → m ∈ l' := by rintro l' h; cases h; exact hm
      rw [if_pos hm]
      split_ifs with c
      · exact ⟨_, _, rfl, fun _ => ⟨rfl, rfl⟩, fun h => absurd hnear h⟩
      · exact ⟨_, _, rfl, fun _ => ⟨rfl, rfl⟩, fun h => absurd hnear h⟩
    · rw [if_neg hm]
      exact ⟨_, _, rfl, fun h => absurd (h l rfl) hm, fun _ => ⟨rfl, rfl⟩⟩

/-- The three things that may happen to a node. -/
theorem bounding_cases (i : Fin n) (s : Bounds n N L) (m : N) :
    (m ∈ s.seen i ∧ ∃ sample stop, bounding k p inn reach i s m = ({ s with sample := sample, stop := stop }, [], false) ∧
      (∀ j, j ≠ i → stop j = s.stop j) ∧ (stop i = false → s.stop i = false) ∧ (s.killed = 0 → (∀ j, s.stop j = false) → ∀ j, stop j = false)) ∨
    (m ∉ s.seen i ∧ ∃ sample stop sv far out ps, bounding k p inn reach i s m =
        ({ s with sample := sample, stop := stop, seen := Function.update s.seen i (s.seen i ++ [m]), survivors := sv, far := far, out := out }, ps, false) ∧
      (∀ j, j ≠ i → stop j = s.stop j) ∧ (stop i = false → s.stop i = false) ∧ (s.killed = 0 → (∀ j, s.stop j = false) → ∀ j, stop j = false) ∧
      (stop i = false → out = s.out ∧ ps = (s.out m).map Prod.snd) ∧
      (stop i = true → out = Function.update s.out m [] ∧ ps = ((s.out m).map Prod.snd).filter (· ≠ m)) ∧
      (Near reach i m → far = s.far ∧ sv = if begins k p (out m) (inn m) then Function.update s.survivors i (m :: s.survivors i) else s.survivors) ∧
      (¬ Near reach i m → far = Function.update s.far m true ∧ sv = s.survivors)) := by
  obtain ⟨sample, stop, e, h1, h2, h3⟩ := s.poll_eq i
  unfold bounding
  dsimp only
  rw [e]
  dsimp only
  by_cases hm : m ∈ s.seen i
  · left
    rw [if_pos hm]
    exact ⟨hm, sample, stop, rfl, h1, h2, h3⟩
  · right
    rw [if_neg hm]
    refine ⟨hm, ?_⟩
    by_cases c : stop i = true
    · rw [if_pos c]
      obtain ⟨sv, far, hb, hb1, hb2⟩ := bound_eq (k := k) (p := p) (inn := inn) (reach := reach) i
        { s with sample := sample, stop := stop, seen := Function.update s.seen i (s.seen i ++ [m]), out := Function.update s.out m [] } m
      rw [hb]
      exact ⟨sample, stop, sv, far, _, _, rfl, h1, h2, h3, fun h => (by rw [c] at h; cases h), fun _ => ⟨rfl, rfl⟩, hb1, hb2⟩
    · rw [if_neg c]
      obtain ⟨sv, far, hb, hb1, hb2⟩ := bound_eq (k := k) (p := p) (inn := inn) (reach := reach) i
        { s with sample := sample, stop := stop, seen := Function.update s.seen i (s.seen i ++ [m]) } m
      rw [hb]
      exact ⟨sample, stop, sv, far, _, _, rfl, h1, h2, h3, fun _ => ⟨rfl, rfl⟩, fun h => absurd h c, hb1, hb2⟩

/-- What's true of bounding as long as it isn't killed. -/
structure Bounded (lane : N → Fin n) (k : Kernel V L) (p : Plan) (out inn : N → List (L × N)) (reach : Fin n → Option (List N)) (s : Bounds n N L) : Prop where
  stop : ∀ i, s.stop i = false
  same : s.out = out
  home : ∀ i, ∀ m ∈ s.seen i, lane m = i
  surv : ∀ i m, m ∈ s.survivors i ↔ m ∈ s.seen i ∧ Near reach i m ∧ begins k p (out m) (inn m) = true
  nodup : ∀ i, (s.survivors i).Nodup
  far : ∀ m, s.far m = true ↔ m ∈ s.seen (lane m) ∧ ¬ Near reach (lane m) m

theorem bounded {out : N → List (L × N)} {a : N} : ∀ x, Bag.Reach (boundingTask k p inn reach hash hn) a (Bounds.start out) x →
    x.1.killed = 0 → Bounded (fun m => Build.lane hn (hash m)) k p out inn reach x.1 := by
  intro x hx
  induction hx with
  | init =>
    intro _
    refine ⟨fun _ => rfl, rfl, fun i m h => (by cases h), fun i m => ?_, fun i => List.nodup_nil, fun m => ?_⟩
    · simp [Bounds.start]
    · simp [Bounds.start]
  | step hr hs ih =>
    cases hs with
    | env e g m => intro h; cases h
    | handle s m rest =>
      intro hk
      have hd : (boundingTask k p inn reach hash hn).handle ((boundingTask k p inn reach hash hn).dest m) s m =
        bounding k p inn reach (Build.lane hn (hash m)) s m := rfl
      simp only [hd] at hk ⊢
      rcases bounding_cases (k := k) (p := p) (inn := inn) (reach := reach) (Build.lane hn (hash m)) s m with ⟨hm, sample, stop, e, -, -, h3⟩ |
        ⟨hm, sample, stop, sv, far, out', ps, e, -, -, h3, h4, -, h6, h7⟩
      · rw [e] at hk ⊢
        have ih := ih hk
        exact ⟨h3 hk ih.stop, ih.same, ih.home, ih.surv, ih.nodup, ih.far⟩
      · rw [e] at hk ⊢
        have ih := ih hk
        have hst := h3 hk ih.stop
        obtain ⟨e4, -⟩ := h4 (hst _)
        have e4' : out' = out := e4.trans ih.same
        subst e4'
        dsimp only at hk ⊢
        have hseen : ∀ i q, q ∈ Function.update s.seen (Build.lane hn (hash m)) (s.seen (Build.lane hn (hash m)) ++ [m]) i ↔
            q ∈ s.seen i ∨ (q = m ∧ i = Build.lane hn (hash m)) := by
          intro i q
          by_cases hq : i = Build.lane hn (hash m)
          · subst hq; rw [Function.update_self, List.mem_append, List.mem_singleton]; simp
          · rw [Function.update_of_ne hq]; simp [hq]
        have hmf : s.far m = false := by
          by_contra hne
          exact hm ((ih.far m).1 (by simpa using hne)).1
        have hms : m ∉ s.survivors (Build.lane hn (hash m)) := fun h => hm ((ih.surv _ m).1 h).1
        by_cases cn : Near reach (Build.lane hn (hash m)) m
        · obtain ⟨rfl, rfl⟩ := h6 cn
          refine ⟨hst, rfl, fun i q hq => ?_, fun i q => ?_, fun i => ?_, fun q => ?_⟩
          · rcases (hseen i q).1 hq with h | ⟨rfl, rfl⟩
            · exact ih.home i q h
            · rfl
          · dsimp only
            rw [hseen]
            by_cases cb : begins k p (out' m) (inn m) = true
            · rw [if_pos cb]
              by_cases hi : i = Build.lane hn (hash m)
              · subst hi
                rw [Function.update_self, List.mem_cons, ih.surv]
                constructor
                · rintro (rfl | h)
                  · exact ⟨.inr ⟨rfl, rfl⟩, cn, cb⟩
                  · exact ⟨.inl h.1, h.2⟩
                · rintro ⟨h | ⟨rfl, -⟩, h'⟩
                  · exact .inr ⟨h, h'⟩
                  · exact .inl rfl
              · rw [Function.update_of_ne hi, ih.surv]; simp [hi]
            · rw [if_neg cb, ih.surv]
              constructor
              · rintro ⟨h1, h2⟩; exact ⟨.inl h1, h2⟩
              · rintro ⟨h1 | ⟨rfl, rfl⟩, h2, h3⟩
                · exact ⟨h1, h2, h3⟩
                · exact absurd h3 cb
          · dsimp only
            split_ifs with cb
            · by_cases hi : i = Build.lane hn (hash m)
              · subst hi
                rw [Function.update_self]
                exact List.nodup_cons.2 ⟨hms, ih.nodup _⟩
              · rw [Function.update_of_ne hi]; exact ih.nodup i
            · exact ih.nodup i
          · dsimp only
            rw [hseen, ih.far]
            constructor
            · rintro ⟨h1, h2⟩; exact ⟨.inl h1, h2⟩
            · rintro ⟨h1 | ⟨rfl, -⟩, h2⟩
              · exact ⟨h1, h2⟩
              · exact absurd cn h2
        · obtain ⟨rfl, rfl⟩ := h7 cn
          refine ⟨hst, rfl, fun i q hq => ?_, fun i q => ?_, ih.nodup, fun q => ?_⟩
          · rcases (hseen i q).1 hq with h | ⟨rfl, rfl⟩
            · exact ih.home i q h
            · rfl
          · dsimp only
            rw [hseen, ih.surv]
            constructor
            · rintro ⟨h1, h2⟩; exact ⟨.inl h1, h2⟩
            · rintro ⟨h1 | ⟨rfl, rfl⟩, h2, h3⟩
              · exact ⟨h1, h2, h3⟩
              · exact absurd h2 cn
          · dsimp only
            rw [hseen]
            by_cases hq : q = m
            · subst hq
              rw [Function.update_self]
              simp [cn]
            · rw [Function.update_of_ne hq, ih.far]; simp [hq]

/-- Bounding as a traversal, which is complete if it isn't killed, and even then if there aren't any loops. -/
def bounder (out : N → List (L × N)) (k : Kernel V L) (p : Plan) (inn : N → List (L × N)) (reach : Fin n → Option (List N)) (hash : N → Nat)
    (hn : 0 < n) : Rover (boundingTask k p inn reach hash hn) (fun m => (out m).map Prod.snd) where
  I s := ∀ m, m ∉ s.seen (Build.lane hn (hash m)) → s.out m = out m
  node m := some m
  weight _ := 0
  lane m := Build.lane hn (hash m)
  seen s := s.seen
  ok s i := (∀ m, m ∉ (out m).map Prod.snd) ∨ s.stop i = false
  dest p m h := by cases h; rfl
  inv s m h := by
    show ∀ q, q ∉ (bounding k p inn reach (Build.lane hn (hash m)) s m).1.seen (Build.lane hn (hash q)) →
      (bounding k p inn reach (Build.lane hn (hash m)) s m).1.out q = out q
    rcases bounding_cases (k := k) (p := p) (inn := inn) (reach := reach) (Build.lane hn (hash m)) s m with ⟨hm, sample, stop, e, -⟩ |
      ⟨hm, sample, stop, sv, far, out', ps, e, -, -, -, h4, h5, -⟩
    · rw [e]; exact h
    · rw [e]
      intro q hq
      dsimp only at hq ⊢
      have hqm : q ≠ m := by
        rintro rfl
        rw [Function.update_self] at hq
        simp at hq
      have hq' : q ∉ s.seen (Build.lane hn (hash q)) := by
        by_cases hl : Build.lane hn (hash q) = Build.lane hn (hash m)
        · rw [hl, Function.update_self] at hq
          rw [hl]
          exact fun h => hq (by simp [h])
        · rw [Function.update_of_ne hl] at hq; exact hq
      by_cases c : stop (Build.lane hn (hash m)) = true
      · rw [(h5 c).1, Function.update_of_ne hqm]; exact h q hq'
      · rw [(h4 (by simpa using c)).1]; exact h q hq'
  others s m j hj := by
    have hj' : j ≠ Build.lane hn (hash m) := hj
    show (bounding k p inn reach (Build.lane hn (hash m)) s m).1.seen j = s.seen j ∧
      ((∀ m, m ∉ (out m).map Prod.snd) ∨ (bounding k p inn reach (Build.lane hn (hash m)) s m).1.stop j = false →
        (∀ m, m ∉ (out m).map Prod.snd) ∨ s.stop j = false)
    rcases bounding_cases (k := k) (p := p) (inn := inn) (reach := reach) (Build.lane hn (hash m)) s m with ⟨hm, sample, stop, e, h1, -⟩ |
      ⟨hm, sample, stop, sv, far, out', ps, e, h1, -⟩
    · rw [e]; exact ⟨rfl, Or.imp_right fun h => by rw [← h1 j hj']; exact h⟩
    · rw [e]; exact ⟨Function.update_of_ne hj' _ _, Or.imp_right fun h => by rw [← h1 j hj']; exact h⟩
  undeferred s m := by
    show (bounding k p inn reach (Build.lane hn (hash m)) s m).2.2 = false
    rcases bounding_cases (k := k) (p := p) (inn := inn) (reach := reach) (Build.lane hn (hash m)) s m with ⟨hm, sample, stop, e, h1, -⟩ |
      ⟨hm, sample, stop, sv, far, out', ps, e, h1, -⟩ <;> rw [e]
  mail s p h := by cases h
  step s p' m hI h := by
    cases h
    have hsome : ∀ l : List N, l.filterMap some = l := fun l => List.filterMap_some
    show ((bounding k p inn reach (Build.lane hn (hash p')) s p').1.seen (Build.lane hn (hash p')) = s.seen (Build.lane hn (hash p')) ∧
        (bounding k p inn reach (Build.lane hn (hash p')) s p').2.1.filterMap some = [] ∧
        ((∀ m, m ∉ (out m).map Prod.snd) ∨ (bounding k p inn reach (Build.lane hn (hash p')) s p').1.stop (Build.lane hn (hash p')) = false →
          ((∀ m, m ∉ (out m).map Prod.snd) ∨ s.stop (Build.lane hn (hash p')) = false) ∧ p' ∈ s.seen (Build.lane hn (hash p')))) ∨
      (p' ∉ s.seen (Build.lane hn (hash p')) ∧
        (bounding k p inn reach (Build.lane hn (hash p')) s p').1.seen (Build.lane hn (hash p')) = s.seen (Build.lane hn (hash p')) ++ [p'] ∧
        (∀ q ∈ (bounding k p inn reach (Build.lane hn (hash p')) s p').2.1.filterMap some, q ∈ (out p').map Prod.snd) ∧
        ((∀ m, m ∉ (out m).map Prod.snd) ∨ (bounding k p inn reach (Build.lane hn (hash p')) s p').1.stop (Build.lane hn (hash p')) = false →
          ((∀ m, m ∉ (out m).map Prod.snd) ∨ s.stop (Build.lane hn (hash p')) = false) ∧
          ∀ q ∈ (out p').map Prod.snd, q ∈ (bounding k p inn reach (Build.lane hn (hash p')) s p').2.1.filterMap some))
    rw [hsome]
    rcases bounding_cases (k := k) (p := p) (inn := inn) (reach := reach) (Build.lane hn (hash p')) s p' with ⟨hm, sample, stop, e, -, h2, -⟩ |
      ⟨hm, sample, stop, sv, far, out', ps, e, -, h2, -, h4, h5, -⟩
    · left; rw [e]; exact ⟨rfl, rfl, fun h => ⟨h.imp_right h2, hm⟩⟩
    · right
      rw [e]
      have hout := hI p' hm
      refine ⟨hm, Function.update_self .., fun q hq => ?_, fun h => ⟨h.imp_right h2, fun q hq => ?_⟩⟩
      · dsimp only at hq
        by_cases c : stop (Build.lane hn (hash p')) = true
        · rw [(h5 c).2, hout] at hq
          exact List.mem_of_mem_filter hq
        · rw [(h4 (by simpa using c)).2, hout] at hq; exact hq
      · dsimp only at h ⊢
        by_cases c : stop (Build.lane hn (hash p')) = true
        · rw [(h5 c).2, hout]
          refine List.mem_filter.2 ⟨hq, ?_⟩
          have hl := h.resolve_right (by rw [c]; simp)
          simp only [decide_eq_true_eq]
          rintro rfl
          exact hl _ hq
        · rw [(h4 (by simpa using c)).2, hout]; exact hq
  env e s := ⟨rfl, fun h => h, fun i h => h⟩

variable {g : Gr N V L}

/-- The outcome of bounding when it isn't killed. -/
theorem bounding_done {y : State n N (Bounds n N L)} (hg : g.WF) (hy : Net.Reach (boundingTask k p g.inn reach hash hn) g.base (Bounds.start g.out) y)
    (hd : y.main = .done) (hk : y.g.killed = 0) :
    Bounded (fun m => Build.lane hn (hash m)) k p g.out g.inn reach y.g ∧ ∀ i m, m ∈ y.g.seen i ↔ m ∈ g.nodes ∧ Build.lane hn (hash m) = i := by
  have hb := Rover.done_bag hn hy hd
  have h1 := bounded _ hb hk
  have hi := Rover.inv_reach (W := bounder g.out k p g.inn reach hash hn) (a := g.base) (fun i => rfl) (fun m _ => rfl) rfl _ hb
  refine ⟨h1, fun i m => ?_⟩
  have hv := Rover.visited_iff hi (fun i => .inr (h1.stop i)) m
  rw [hg.reach m]
  constructor
  · intro hm
    exact ⟨hv.1 (Rover.mem_visited.2 ⟨i, hm⟩), h1.home i m hm⟩
  · rintro ⟨hm, rfl⟩
    obtain ⟨j, hj⟩ := Rover.mem_visited.1 (hv.2 hm)
    have hjl : Build.lane hn (hash m) = j := h1.home j m hj
    rw [hjl]; exact hj

end Cru.Mutate
