import Verif.Proofs.MailInv

/-!
# Each step
-/

namespace Cru.Mail

open Cru.Pool

variable {R I P : Type} [DecidableEq R] [DecidableEq I] [DecidableEq P]

theorem step_load {s s' : State (Loc I P) (Option P) I} {t : Nat} {a k} (hC : s.threads[t]? = some (.load a k)) (h : step t s = some s') :
    s' = { s with threads := s.threads.set t (k (s.mem a)) } := by
  simp only [step, hC, Option.some.injEq] at h
  exact h.symm

theorem step_store {s s' : State (Loc I P) (Option P) I} {t : Nat} {a x k} (hC : s.threads[t]? = some (.store a x k)) (h : step t s = some s') :
    s' = { s with threads := s.threads.set t k, mem := put s.mem a x } := by
  simp only [step, hC, Option.some.injEq] at h
  exact h.symm

theorem step_wrlock {s s' : State (Loc I P) (Option P) I} {t : Nat} {l k} (hC : s.threads[t]? = some (.wrlock l k)) (h : step t s = some s') :
    s.writer l = none ∧ s' = { s with threads := s.threads.set t k, writer := put s.writer l (some t) } := by
  simp only [step, hC] at h
  split_ifs at h with h1
  simp only [Option.some.injEq] at h
  exact ⟨h1.1, h.symm⟩

theorem step_unlock {s s' : State (Loc I P) (Option P) I} {t : Nat} {l k} (hC : s.threads[t]? = some (.unlock l k)) (hw : s.writer l = some t)
    (h : step t s = some s') : s' = { s with threads := s.threads.set t k, writer := put s.writer l none } := by
  simp only [step, hC, if_pos hw, Option.some.injEq] at h
  exact h.symm

theorem next_cell {m : Loc I P → Option P} {d : Cell I} {v : Option P} {q : P} : put m (.cell d) v (.next q) = m (.next q) := put_other _ _ (by simp)

theorem cell_next {m : Loc I P → Option P} {d : Cell I} {v : Option P} {q : P} : put m (.next q) v (.cell d) = m (.cell d) := put_other _ _ (by simp)

theorem next_ne {m : Loc I P → Option P} {v : Option P} {p q : P} (h : q ≠ p) : put m (.next p) v (.next q) = m (.next q) := put_other _ _ (by simpa)

theorem cell_ne {m : Loc I P → Option P} {v : Option P} {d e : Cell I} (h : d ≠ e) : put m (.cell e) v (.cell d) = m (.cell d) := put_other _ _ (by simpa)

/-- A field whose mutex is held by a worker that hasn't yet done anything to it. -/
theorem own_cell {n : Nat} {g b : Nat → Option I} {s : State (Loc I P) (Option P) I} {a : Post R I P} (hi : Tidy n g b s a) {t : Nat} {d : Cell I}
    (hg : g t = some d.port) (hb : b t = none ∨ d ≠ .assigned d.port) : Linked s.mem none (s.mem (.cell d)) (a.lists (.cell d)) := by
  refine hi.cells d fun u i hu hdi => ?_
  have hdp : d.port = i := by rw [hdi]; rfl
  have hgu : g u = some i := by
    cases hD : s.threads[u]? with
    | none => rw [(hi.gone u hD).2] at hu; cases hu
    | some D =>
      have hlu := hi.len ▸ lt_of_get hD
      exact broken_held (hi.ph u D _ hD (List.getElem?_eq_getElem hlu)) hu
  have h1 := hi.lock u i hgu
  have h2 := hi.lock t _ hg
  rw [hdp, h1] at h2
  have e : u = t := Option.some.inj h2
  subst e
  rcases hb with h | h
  · rw [h] at hu; cases hu
  · exact h (by rw [hdp]; exact hdi)

/-- A worker looking for the last packet in a list. -/
theorem walk_step {n : Nat} {g b : Nat → Option I} {s s' : State (Loc I P) (Option P) I} {t : Nat} {a : Post R I P} {r : R} {d : Cell I}
    {k : Client R I P} {p q : P} {j : Nat} {pre post : List P} (hi : Tidy n g b s a)
    (hC : s.threads[t]? = some (walk j q fun q =>
        .wrlock d.port <| .load (.cell d) fun x => .store (.next q) x <| .store (.cell d) (some p) <|
          .unlock d.port (compile n k (Function.update (hd fun r => a.lists (.var t r)) r none))))
    (hc : a.clients[t]? = some (.send r d k)) (hg : g t = none) (hb : b t = none) (hr : Regs s.mem (fun r => a.lists (.var t r)))
    (hp : (a.lists (.var t r)).head? = some p) (hl : a.lists (.var t r) = pre ++ q :: post) (hj : post.length < j)
    (h : step t s = some s') : ∃ a' g' b', a.Reach a' ∧ Tidy n g' b' s' a' := by
  obtain ⟨j, rfl⟩ : ∃ i, j = i + 1 := ⟨j - 1, by omega⟩
  simp only [walk] at hC
  have hs := step_load hC h
  have hq : Linked s.mem none (s.mem (.next q)) post := by
    have := hr r
    dsimp only at this
    rw [hl] at this
    obtain ⟨y, -, h2⟩ := linked_append.1 this
    exact h2.2
  cases post with
  | nil =>
    have e : s.mem (.next q) = none := hq
    rw [e] at hs
    subst hs
    have := advance_keep hi hC hc (.inl rfl) (g' := none) (s' := { s with threads := _ }) rfl
        (fun _ _ => rfl) (fun _ => rfl) (fun _ _ _ h => h) (by simp) (.send1 (d := d) (k := k) hr hp hl) (fun _ => rfl) hb
    exact ⟨_, _, _, this⟩
  | cons q' post =>
    have e : s.mem (.next q) = some q' := hq.1
    rw [e] at hs
    subst hs
    have := advance_keep hi hC hc (.inl rfl) (g' := none) (s' := { s with threads := _ }) rfl
        (fun _ _ => rfl) (fun _ => rfl) (fun _ _ _ h => h) (by simp)
        (.walk (d := d) (k := k) (q := q') (pre := pre ++ [q]) (post := post) (j := j) hr hp (by simp [hl]) (by simpa using hj)) (fun _ => rfl) hb
    exact ⟨_, _, _, this⟩

variable [Fintype P]

/-- A worker that isn't in the middle of something. -/
theorem idle_step {g b : Nat → Option I} {s s' : State (Loc I P) (Option P) I} {t : Nat} (c : Client R I P) :
    ∀ {a : Post R I P}, Tidy (Fintype.card P) g b s a →
    s.threads[t]? = some (compile (Fintype.card P) c (hd fun r => a.lists (.var t r))) → a.clients[t]? = some c → g t = none → b t = none →
    Regs s.mem (fun r => a.lists (.var t r)) → step t s = some s' → ∃ a' g' b', a.Reach a' ∧ Tidy (Fintype.card P) g' b' s' a' := by
  induction c with
  | done =>
    intro a hi hC hc hg hb hr h
    simp [step, hC, compile] at h
  | shift r r' k ih =>
    intro a hi hC hc hg hb hr h
    simp only [compile] at hC
    split at hC
    · rename_i x hx
      have hx' : a.lists (.var t r') ≠ [] := by
        intro e
        simp [hd, e] at hx
      have ha : act t a.lists (.shift r r' k) = some (k, a.lists) := by simp [act, hx']
      have := silent hi hC hc ha (fun _ => rfl) hg hb (.idle hr)
      obtain ⟨a', g', b', h1, h2⟩ := ih this.2 hC (by simp [hi.len ▸ lt_of_get hC]) hg hb hr h
      exact ⟨a', g', b', reach_trans this.1 h1, h2⟩
    · rename_i hx
      have hx' : a.lists (.var t r') = [] := head_none.1 hx
      have ha : act t a.lists (.shift r r' k) = some (k, transfer (.var t r) (.var t r') a.lists) := by simp [act, hx']
      have e : Function.update (Function.update (hd fun r => a.lists (.var t r)) r' (hd (fun r => a.lists (.var t r)) r)) r none =
          hd fun x => transfer (.var t r) (.var t r') a.lists (.var t x) := by
        funext x
        simp only [hd, transfer_apply, Function.update_apply, Place.var.injEq, true_and]
        by_cases h1 : x = r <;> by_cases h2 : x = r' <;> by_cases h3 : r' = r <;> simp_all
      rw [e] at hC
      have hr' : Regs s.mem fun x => transfer (.var t r) (.var t r') a.lists (.var t x) := by
        intro x
        simp only [transfer_apply, Place.var.injEq, true_and]
        split_ifs with h1 h2
        · exact hr r
        · rw [hx', List.append_nil]; exact hr r
        · rfl
        · exact hr x
      have := silent hi hC hc ha (fun d => by simp [transfer_apply]) hg hb (.idle hr')
      obtain ⟨a', g', b', h1, h2⟩ := ih this.2 hC (by simp [hi.len ▸ lt_of_get hC]) hg hb hr' h
      exact ⟨a', g', b', reach_trans this.1 h1, h2⟩
  | take r d k ih =>
    intro a hi hC hc hg hb hr h
    simp only [compile] at hC
    split at hC
    · rename_i x hx
      have hx' : a.lists (.var t r) ≠ [] := by
        intro e
        simp [hd, e] at hx
      have ha : act t a.lists (.take r d k) = some (k, a.lists) := by simp [act, hx']
      have := silent hi hC hc ha (fun _ => rfl) hg hb (.idle hr)
      obtain ⟨a', g', b', h1, h2⟩ := ih this.2 hC (by simp [hi.len ▸ lt_of_get hC]) hg hb hr h
      exact ⟨a', g', b', reach_trans this.1 h1, h2⟩
    · rename_i hx
      have hx' : a.lists (.var t r) = [] := head_none.1 hx
      obtain ⟨hw, rfl⟩ := step_wrlock hC h
      have := advance_keep hi hC hc (.inl rfl) (g' := some d.port) (s' := { s with threads := _, writer := put s.writer d.port (some t) }) rfl
        (fun _ _ => rfl) (fun _ => rfl) (fun i u hu hi => by
          dsimp only
          rw [put_other _ _ (by rintro rfl; rw [hw] at hi; cases hi)]
          exact hi) (fun i hi => by cases hi; exact put_same _ _ _) (.take1 hr hx') (fun _ => rfl) hb
      exact ⟨_, _, _, this⟩
  | wait r d k ih =>
    intro a hi hC hc hg hb hr h
    simp only [compile] at hC
    split at hC
    · rename_i x hx
      have hx' : a.lists (.var t r) ≠ [] := by
        intro e
        simp [hd, e] at hx
      have ha : act t a.lists (.wait r d k) = some (k, a.lists) := by simp [act, hx']
      have := silent hi hC hc ha (fun _ => rfl) hg hb (.idle hr)
      obtain ⟨a', g', b', h1, h2⟩ := ih this.2 hC (by simp [hi.len ▸ lt_of_get hC]) hg hb hr h
      exact ⟨a', g', b', reach_trans this.1 h1, h2⟩
    · rename_i hx
      have hx' : a.lists (.var t r) = [] := head_none.1 hx
      obtain ⟨hw, rfl⟩ := step_wrlock hC h
      have := advance_keep hi hC hc (.inl rfl) (g' := some d.port) (s' := { s with threads := _, writer := put s.writer d.port (some t) }) rfl
        (fun _ _ => rfl) (fun _ => rfl) (fun i u hu hi => by
          dsimp only
          rw [put_other _ _ (by rintro rfl; rw [hw] at hi; cases hi)]
          exact hi) (fun i hi => by cases hi; exact put_same _ _ _) (.wait1 hr hx') (fun _ => rfl) hb
      exact ⟨_, _, _, this⟩
  | move r into k ih =>
    intro a hi hC hc hg hb hr h
    simp only [compile] at hC
    split at hC
    · rename_i hx
      have hx' : a.lists (.var t r) = [] := head_none.1 hx
      have ha : act t a.lists (.move r into k) = some (k none, a.lists) := by simp [act, hx']
      have := silent hi hC hc ha (fun _ => rfl) hg hb (.idle hr)
      obtain ⟨a', g', b', h1, h2⟩ := ih none this.2 hC (by simp [hi.len ▸ lt_of_get hC]) hg hb hr h
      exact ⟨a', g', b', reach_trans this.1 h1, h2⟩
    · rename_i p hx
      obtain ⟨l, hl⟩ : ∃ l, a.lists (.var t r) = p :: l := by
        simp only [hd] at hx
        cases e : a.lists (.var t r) with
        | nil => rw [e] at hx; cases hx
        | cons q l => rw [e] at hx; cases hx; exact ⟨l, rfl⟩
      have hrr := hr r
      dsimp only at hrr
      rw [hl] at hrr
      have hn := linked_head hrr.2
      have hs := step_load hC h
      subst hs
      rw [hn]
      have := advance_keep hi hC hc (.inl rfl) (g' := none) (s' := { s with threads := _ }) rfl
        (fun _ _ => rfl) (fun _ => rfl) (fun _ _ _ h => h) (by simp) (.move1 (into := into) (k := k) hr hl) (fun _ => rfl) hb
      exact ⟨_, _, _, this⟩
  | send r d k ih =>
    intro a hi hC hc hg hb hr h
    simp only [compile] at hC
    split at hC
    · rename_i hx
      have hx' : a.lists (.var t r) = [] := head_none.1 hx
      have ha : act t a.lists (.send r d k) = some (k, transfer (.var t r) (.cell d) a.lists) := by simp [act]
      have e : ∀ c, transfer (.var t r) (.cell d) a.lists c = a.lists c := by
        intro c
        rw [transfer_apply]
        by_cases h1 : c = .cell d
        · subst h1
          simp [hx']
        · rw [if_neg h1]
          split_ifs with h2
          · rw [h2, hx']
          · rfl
      have e' : transfer (.var t r) (.cell d) a.lists = a.lists := funext e
      rw [e'] at ha
      have := silent hi hC hc ha (fun _ => rfl) hg hb (.idle hr)
      obtain ⟨a', g', b', h1, h2⟩ := ih this.2 hC (by simp [hi.len ▸ lt_of_get hC]) hg hb hr h
      exact ⟨a', g', b', reach_trans this.1 h1, h2⟩
    · rename_i p hx
      obtain ⟨l, hl⟩ : ∃ l, a.lists (.var t r) = p :: l := by
        simp only [hd] at hx
        cases e : a.lists (.var t r) with
        | nil => rw [e] at hx; cases hx
        | cons q l => rw [e] at hx; cases hx; exact ⟨l, rfl⟩
      have hcard : l.length < Fintype.card P := by
        have := (hi.dist.1 (.var t r)).length_le_card
        rw [hl] at this
        simpa using this
      exact walk_step (pre := []) hi hC hc hg hb hr (by simpa [hd] using hx) hl hcard h
  | undefer i k ih =>
    intro a hi hC hc hg hb hr h
    simp only [compile] at hC
    obtain ⟨hw, rfl⟩ := step_wrlock hC h
    have := advance_keep hi hC hc (.inl rfl) (g' := some i) (s' := { s with threads := _, writer := put s.writer i (some t) }) rfl
        (fun _ _ => rfl) (fun _ => rfl) (fun i u hu hi => by
          dsimp only
          rw [put_other _ _ (by rintro rfl; rw [hw] at hi; cases hi)]
          exact hi) (fun i hi => by cases hi; exact put_same _ _ _) (.undefer1 hr) (fun _ => rfl) hb
    exact ⟨_, _, _, this⟩

/-- Any worker. -/
theorem tidy_step {g b : Nat → Option I} {s s' : State (Loc I P) (Option P) I} {t : Nat} {a : Post R I P} (hi : Tidy (Fintype.card P) g b s a)
    (h : step t s = some s') : ∃ a' g' b', a.Reach a' ∧ Tidy (Fintype.card P) g' b' s' a' := by
  cases hC : s.threads[t]? with
  | none => simp [step, hC] at h
  | some C =>
  obtain ⟨c, hc⟩ : ∃ c, a.clients[t]? = some c := ⟨_, List.getElem?_eq_getElem (hi.len ▸ lt_of_get hC)⟩
  have hp := hi.ph t C c hC hc
  generalize hg : g t = gt at hp
  generalize hb : b t = bt at hp
  generalize hρ : (fun r => a.lists (.var t r)) = ρ at hp
  have hρ' : ∀ r, ρ r = a.lists (.var t r) := fun r => by rw [← hρ]
  cases hp with
  | idle hr =>
    subst hρ
    exact idle_step c hi hC hc hg hb hr h
  | unlocking hr =>
    subst hρ
    rename_i i
    have hw := hi.lock t i hg
    have hs := step_unlock hC hw h
    subst hs
    have := advance_keep hi hC hc (.inl rfl) (g' := none) (s' := { s with threads := _, writer := put s.writer i none }) rfl
        (fun _ _ => rfl) (fun _ => rfl) (fun j u hu hj => by
          dsimp only
          rw [put_other _ _ (by rintro rfl; rw [hw] at hj; exact hu (Option.some.inj hj).symm)]
          exact hj) (by simp) (.idle hr) (fun _ => rfl) hb
    exact ⟨_, _, _, this⟩
  | take1 hr hx =>
    subst hρ
    rename_i r d k
    have hs := step_load hC h
    subst hs
    have := advance_keep hi hC hc (.inl rfl) (g' := some d.port) (s' := { s with threads := _ }) rfl
        (fun _ _ => rfl) (fun _ => rfl) (fun _ _ _ h => h) (fun i hj => by cases hj; exact hi.lock t _ hg)
        (.take2 (k := k) hr hx rfl (.inl rfl)) (fun _ => rfl) hb
    exact ⟨_, _, _, this⟩
  | take2 hr hx hm hk =>
    subst hρ
    rename_i r d k x
    have hs := step_store hC h
    subst hs
    have hl := own_cell hi hg (.inl hb)
    have hx' : a.lists (.var t r) = [] := hx
    have ha : act t a.lists c = some (k, transfer (.cell d) (.var t r) a.lists) := by
      rcases hk with rfl | ⟨rfl, hn⟩
      · simp [act, hx']
      · have : a.lists (.cell d) ≠ [] := by
          intro e
          rw [e] at hl
          exact hn (hm ▸ hl)
        simp [act, hx', this]
    have e : Function.update (hd fun r => a.lists (.var t r)) r x = hd fun y => transfer (.cell d) (.var t r) a.lists (.var t y) := by
      funext y
      simp only [hd, transfer_apply, Function.update_apply, Place.var.injEq, true_and]
      by_cases h1 : y = r
      · simp [h1, hx', ← linked_head hl, hm]
      · simp [h1]
    rw [e]
    have := advance hi hC hc (.inr ha) (g' := some d.port) (b' := none) (s' := { s with threads := _, mem := put s.mem (.cell d) none }) rfl
      (fun _ _ => by first | dsimp only; rw [next_cell] | rw [next_cell]) (fun d' hd' => by
        try dsimp only
        refine cell_ne ?_
        rintro rfl
        exact hd' hg) (fun _ _ _ h => h) (fun i hj => by cases hj; exact hi.lock t _ hg)
      (.unlocking fun y => by
        simp only [transfer_apply, Place.var.injEq, true_and]
        refine linked_congr (m := s.mem) (fun _ _ => by first | dsimp only; rw [next_cell] | rw [next_cell]) ?_
        by_cases h1 : y = r
        · simp only [h1, if_true, reduceCtorEq, if_false, hx', List.append_nil]
          rw [← linked_head hl]
          exact hl
        · simp only [h1, if_false, reduceCtorEq]
          exact hr y)
      (fun d' hd' => by
        rw [transfer_apply]
        by_cases h1 : d' = d
        · subst h1
          exact absurd hg hd'
        · simp [h1])
      (by simp)
      (fun d' hd' _ hold => by
        dsimp only
        by_cases h1 : d' = d
        · subst h1
          rw [put_same]
          simp [transfer_apply, Linked]
        · rw [cell_ne h1]
          rw [show transfer (.cell d) (.var t r) a.lists (.cell d') = a.lists (.cell d') by simp [transfer_apply, h1]]
          exact linked_congr (fun _ _ => by first | dsimp only; rw [next_cell] | rw [next_cell]) (hold (.inl hb)))
    exact ⟨_, _, _, this⟩
  | wait1 hr hx =>
    subst hρ
    rename_i r d k
    have hs := step_load hC h
    have hl := own_cell hi hg (.inl hb)
    have hx' : a.lists (.var t r) = [] := hx
    cases hm : s.mem (.cell d) with
    | some p =>
      rw [hm] at hs
      subst hs
      have := advance_keep hi hC hc (.inl rfl) (g' := some d.port) (s' := { s with threads := _ }) rfl
        (fun _ _ => rfl) (fun _ => rfl) (fun _ _ _ h => h) (fun i hj => by cases hj; exact hi.lock t _ hg)
        (.take2 (k := k) hr hx hm (.inr ⟨rfl, by simp⟩)) (fun _ => rfl) hb
      exact ⟨_, _, _, this⟩
    | none =>
      rw [hm] at hs hl
      subst hs
      have he : a.lists (.cell d) = [] := head_none.1 (linked_head hl).symm
      have ha : act t a.lists (.wait r d k) = some (.take r d k, a.lists) := by simp [act, hx', he]
      have hcomp : compile (Fintype.card P) (.take r d k) (hd fun r => a.lists (.var t r)) =
          .wrlock d.port (.load (.cell d) fun y => .store (.cell d) none (.unlock d.port (compile (Fintype.card P) k (Function.update (hd fun r => a.lists (.var t r)) r y)))) := by
        simp [compile, hd, hx']
      dsimp only
      rw [← hcomp]
      have := advance_keep hi hC hc (.inr ha) (g' := some d.port) (s' := { s with threads := _ }) rfl
        (fun _ _ => rfl) (fun _ => rfl) (fun _ _ _ h => h) (fun i hj => by cases hj; exact hi.lock t _ hg)
        (.unlocking hr) (fun _ => rfl) hb
      exact ⟨_, _, _, this⟩
  | move1 hr hl =>
    subst hρ
    rename_i r into k p l
    have hs := step_store hC h
    subst hs
    have hl' : a.lists (.var t r) = p :: l := hl
    have hnd := hi.dist.1 (.var t r)
    rw [hl'] at hnd
    have hrr := hr r
    dsimp only at hrr
    rw [hl'] at hrr
    have hn := linked_head hrr.2
    have := advance_keep hi hC hc (.inl rfl) (g' := none) (s' := { s with threads := _, mem := put s.mem (.next p) none }) rfl
      (fun q hq => by
        try dsimp only
        refine next_ne ?_
        rintro rfl
        exact hq r (by simp [hl']))
      (fun _ => by first | dsimp only; rw [cell_next] | rw [cell_next]) (fun _ _ _ h => h) (by simp)
      (.move2 (into := into) (k := k) (fun r' hr' => linked_congr (m := s.mem) (fun q hq => by
          try dsimp only
          refine next_ne ?_
          rintro rfl
          have := hi.dist.2 (.var t r') (.var t r) q hq (by simp [hl'])
          simp only [Place.var.injEq, true_and] at this
          exact hr' this) (hr r')) hl (linked_congr (m := s.mem) (fun q hq => by
          try dsimp only
          refine next_ne ?_
          rintro rfl
          exact (List.nodup_cons.1 hnd).1 hq) (hn ▸ hrr.2)) (put_same _ _ _)) (fun _ => rfl) hb
    exact ⟨_, _, _, this⟩
  | move2 ho hl hk hn =>
    subst hρ
    rename_i r into k p l
    have hs := step_load hC h
    rw [hn] at hs
    subst hs
    have := advance_keep hi hC hc (.inl rfl) (g' := none) (s' := { s with threads := _ }) rfl
        (fun _ _ => rfl) (fun _ => rfl) (fun _ _ _ h => h) (by simp) (.move3 (into := into) (k := k) ho hl hk) (fun _ => rfl) hb
    exact ⟨_, _, _, this⟩
  | move3 ho hl hk =>
    subst hρ
    rename_i r into k p l
    have hs := step_store hC h
    subst hs
    have hl' : a.lists (.var t r) = p :: l := hl
    have hnd := hi.dist.1 (.var t r)
    rw [hl'] at hnd
    have ha : act t a.lists (.move r into k) = some (k (some p), transferHead (.var t r) (.var t (into p)) p l a.lists) := by
      simp [act, hl']
    have e : Function.update (Function.update (hd fun r => a.lists (.var t r)) r l.head?) (into p) (some p) =
        hd fun y => transferHead (.var t r) (.var t (into p)) p l a.lists (.var t y) := by
      funext y
      simp only [hd, head_apply, Function.update_apply, Place.var.injEq, true_and]
      by_cases h1 : y = into p <;> by_cases h2 : y = r <;> by_cases h3 : into p = r <;> simp_all
    rw [e]
    have hq : ∀ y q, y ≠ r → q ∈ a.lists (.var t y) → q ≠ p := by
      rintro y q hy hq rfl
      have := hi.dist.2 (.var t y) (.var t r) q hq (by simp [hl'])
      simp only [Place.var.injEq, true_and] at this
      exact hy this
    have keep : ∀ {e x : Option P} {l' : List P} {v : Option P}, p ∉ l' → Linked s.mem e x l' → Linked (put s.mem (.next p) v) e x l' := by
      intro e x l' v hp hl
      exact linked_congr (fun q hm => by
        refine next_ne ?_
        intro e
        exact hp (e ▸ hm)) hl
    have := advance_keep hi hC hc (.inr ha) (g' := none)
      (s' := { s with threads := _, mem := put s.mem (.next p) (Function.update (hd fun r => a.lists (.var t r)) r l.head? (into p)) }) rfl
      (fun q hm => by
        dsimp only
        refine next_ne ?_
        intro e
        exact hm r (by rw [hl', e]; exact List.mem_cons_self))
      (fun _ => by first | dsimp only; rw [cell_next] | rw [cell_next]) (fun _ _ _ h => h) (by simp)
      (.idle fun y => by
        simp only [head_apply, Place.var.injEq, true_and]
        by_cases h1 : y = into p
        · subst h1
          simp only [if_true]
          by_cases h3 : into p = r
          · simp only [h3, if_true, Function.update_self]
            exact ⟨rfl, by rw [put_same]; exact keep (List.nodup_cons.1 hnd).1 hk⟩
          · simp only [h3, if_false]
            refine ⟨rfl, ?_⟩
            rw [put_same, Function.update_of_ne h3]
            exact keep (fun hm => hq _ _ h3 hm rfl) (ho _ h3)
        · simp only [h1, if_false]
          by_cases h2 : y = r
          · simp only [h2, if_true]
            exact keep (List.nodup_cons.1 hnd).1 hk
          · simp only [h2, if_false]
            exact keep (fun hm => hq _ _ h2 hm rfl) (ho _ h2))
      (fun d => by simp [head_apply]) hb
    exact ⟨_, _, _, this⟩
  | walk hr hp hl hj =>
    subst hρ
    exact walk_step hi hC hc hg hb hr hp hl hj h
  | send1 hr hp hl =>
    subst hρ
    rename_i r d k p q pre
    obtain ⟨hw, rfl⟩ := step_wrlock hC h
    have := advance_keep hi hC hc (.inl rfl) (g' := some d.port) (s' := { s with threads := _, writer := put s.writer d.port (some t) }) rfl
        (fun _ _ => rfl) (fun _ => rfl) (fun i u hu hi => by
          dsimp only
          rw [put_other _ _ (by rintro rfl; rw [hw] at hi; cases hi)]
          exact hi) (fun i hi => by cases hi; exact put_same _ _ _) (.send2 hr hp hl) (fun _ => rfl) hb
    exact ⟨_, _, _, this⟩
  | send2 hr hp hl =>
    subst hρ
    rename_i r d k p q pre
    have hs := step_load hC h
    subst hs
    have := advance_keep hi hC hc (.inl rfl) (g' := some d.port) (s' := { s with threads := _ }) rfl
        (fun _ _ => rfl) (fun _ => rfl) (fun _ _ _ h => h) (fun i hj => by cases hj; exact hi.lock t _ hg)
        (.send3 hr hp hl rfl) (fun _ => rfl) hb
    exact ⟨_, _, _, this⟩
  | send3 hr hp hl hx =>
    subst hρ
    rename_i r d k p q pre x
    have hs := step_store hC h
    subst hs
    have hl' : a.lists (.var t r) = pre ++ [q] := hl
    have hnd := hi.dist.1 (.var t r)
    rw [hl'] at hnd
    have hqp : q ∉ pre := fun hm => (List.nodup_append.1 hnd).2.2 q hm q (by simp) rfl
    have := advance_keep hi hC hc (.inl rfl) (g' := some d.port) (s' := { s with threads := _, mem := put s.mem (.next q) x }) rfl
      (fun q' hq => by
        try dsimp only
        refine next_ne ?_
        rintro rfl
        exact hq r (by simp [hl']))
      (fun _ => by first | dsimp only; rw [cell_next] | rw [cell_next]) (fun _ _ _ h => h) (fun i hj => by cases hj; exact hi.lock t _ hg)
      (.send4 (r := r) (k := k) (fun r' hr' => linked_congr (m := s.mem) (fun q' hq => by
          try dsimp only
          refine next_ne ?_
          rintro rfl
          have := hi.dist.2 (.var t r') (.var t r) q' hq (by simp [hl'])
          simp only [Place.var.injEq, true_and] at this
          exact hr' this) (hr r')) hp (by
        dsimp only
        rw [cell_next, hx]
        have := hr r
        dsimp only at this hp
        rw [hp, hl'] at this
        rw [hl']
        obtain ⟨y, h1, h2⟩ := linked_append.1 this
        exact linked_append.2 ⟨y, linked_congr (fun q' hq => by
          try dsimp only
          refine next_ne ?_
          rintro rfl
          exact hqp hq) h1, h2.1, put_same _ _ _⟩)) (fun _ => rfl) hb
    exact ⟨_, _, _, this⟩
  | send4 ho hp hl =>
    subst hρ
    rename_i r d k p
    have hs := step_store hC h
    subst hs
    have ha : act t a.lists (.send r d k) = some (k, transfer (.var t r) (.cell d) a.lists) := by simp [act]
    have e : Function.update (hd fun r => a.lists (.var t r)) r none = hd fun y => transfer (.var t r) (.cell d) a.lists (.var t y) := by
      funext y
      simp only [hd, transfer_apply, Function.update_apply, Place.var.injEq, true_and]
      by_cases h1 : y = r <;> simp [h1]
    rw [e]
    have := advance hi hC hc (.inr ha) (g' := some d.port) (b' := none) (s' := { s with threads := _, mem := put s.mem (.cell d) (some p) }) rfl
      (fun _ _ => by first | dsimp only; rw [next_cell] | rw [next_cell]) (fun d' hd' => by
        try dsimp only
        refine cell_ne ?_
        rintro rfl
        exact hd' hg) (fun _ _ _ h => h) (fun i hj => by cases hj; exact hi.lock t _ hg)
      (.unlocking fun y => by
        simp only [transfer_apply, Place.var.injEq, true_and]
        refine linked_congr (m := s.mem) (fun _ _ => by first | dsimp only; rw [next_cell] | rw [next_cell]) ?_
        by_cases h1 : y = r
        · simp [h1, Linked]
        · simp only [h1, if_false, reduceCtorEq]
          exact ho y h1)
      (fun d' hd' => by
        rw [transfer_apply]
        by_cases h1 : d' = d
        · subst h1
          exact absurd hg hd'
        · simp [h1])
      (by simp)
      (fun d' hd' _ hold => by
        dsimp only
        have hold := hold (.inl hb)
        by_cases h1 : d' = d
        · subst h1
          rw [put_same]
          simp only [transfer_apply, if_true, reduceCtorEq, if_false]
          refine linked_congr (m := s.mem) (fun _ _ => by first | dsimp only; rw [next_cell] | rw [next_cell]) ?_
          exact linked_append.2 ⟨_, hl, hold⟩
        · rw [cell_ne h1]
          rw [show transfer (.var t r) (.cell d) a.lists (.cell d') = a.lists (.cell d') by simp [transfer_apply, h1]]
          exact linked_congr (fun _ _ => by first | dsimp only; rw [next_cell] | rw [next_cell]) hold)
    exact ⟨_, _, _, this⟩
  | undefer1 hr =>
    subst hρ
    rename_i i k
    have hs := step_load hC h
    have hl := own_cell hi (d := .assigned i) hg (.inl hb)
    cases hm : s.mem (.cell (.assigned i)) with
    | some p =>
      rw [hm] at hs hl
      subst hs
      have he : a.lists (.cell (.assigned i)) ≠ [] := by
        intro e
        rw [e] at hl
        cases hl
      have ha : act t a.lists (.undefer i k) = some (k, a.lists) := by simp [act, he]
      have := advance_keep hi hC hc (.inr ha) (g' := some i) (s' := { s with threads := _ }) rfl
        (fun _ _ => rfl) (fun _ => rfl) (fun _ _ _ h => h) (fun i hj => by cases hj; exact hi.lock t _ hg)
        (.unlocking hr) (fun _ => rfl) hb
      exact ⟨_, _, _, this⟩
    | none =>
      rw [hm] at hs
      subst hs
      have := advance_keep hi hC hc (.inl rfl) (g' := some i) (s' := { s with threads := _ }) rfl
        (fun _ _ => rfl) (fun _ => rfl) (fun _ _ _ h => h) (fun i hj => by cases hj; exact hi.lock t _ hg)
        (.undefer2 hr hm) (fun _ => rfl) hb
      exact ⟨_, _, _, this⟩
  | undefer2 hr hm =>
    subst hρ
    rename_i i k
    have hs := step_load hC h
    subst hs
    have := advance_keep hi hC hc (.inl rfl) (g' := some i) (s' := { s with threads := _ }) rfl
        (fun _ _ => rfl) (fun _ => rfl) (fun _ _ _ h => h) (fun i hj => by cases hj; exact hi.lock t _ hg)
        (.undefer3 hr hm rfl) (fun _ => rfl) hb
    exact ⟨_, _, _, this⟩
  | undefer3 hr hm hy =>
    subst hρ
    rename_i i k y
    have hs := step_store hC h
    have hl := own_cell hi (d := .assigned i) hg (.inl hb)
    have hl' := own_cell hi (d := .deferred i) hg (.inl hb)
    have he : a.lists (.cell (.assigned i)) = [] := by
      rw [hm] at hl
      exact head_none.1 (linked_head hl).symm
    cases y with
    | none =>
      have he' : a.lists (.cell (.deferred i)) = [] := by
        rw [hy] at hl'
        exact head_none.1 (linked_head hl').symm
      have hput : put s.mem (.cell (.assigned i)) none = s.mem := by
        funext x
        by_cases hx : x = .cell (.assigned i)
        · rw [hx, put_same, hm]
        · rw [put_other _ _ hx]
      rw [hput] at hs
      subst hs
      have ht : transfer (.cell (.deferred i)) (.cell (.assigned i)) a.lists = a.lists := by
        funext x
        rw [transfer_apply]
        by_cases h1 : x = .cell (.assigned i)
        · subst h1
          simp [he']
        · rw [if_neg h1]
          split_ifs with h2
          · rw [h2, he']
          · rfl
      have ha : act t a.lists (.undefer i k) = some (k, a.lists) := by simp [act, he, ht]
      have := advance_keep hi hC hc (.inr ha) (g' := some i) (s' := { s with threads := _ }) rfl
        (fun _ _ => rfl) (fun _ => rfl) (fun _ _ _ h => h) (fun i hj => by cases hj; exact hi.lock t _ hg)
        (.unlocking hr) (fun _ => rfl) hb
      exact ⟨_, _, _, this⟩
    | some q =>
      subst hs
      have := advance hi hC hc (.inl rfl) (g' := some i) (b' := some i)
        (s' := { s with threads := _, mem := put s.mem (.cell (.assigned i)) (some q) }) rfl
        (fun _ _ => by first | dsimp only; rw [next_cell] | rw [next_cell]) (fun d' hd' => by
          try dsimp only
          refine cell_ne ?_
          rintro rfl
          exact hd' hg) (fun _ _ _ h => h) (fun i hj => by cases hj; exact hi.lock t _ hg)
        (.undefer4 (k := k) (regs_congr (m := s.mem) (fun _ _ _ => by first | dsimp only; rw [next_cell] | rw [next_cell]) hr) (by
          dsimp only
          rw [put_same, cell_ne (by simp), hy]))
        (fun _ _ => rfl) (fun j hj => by cases hj; exact he)
        (fun d hd hne hold => by
          dsimp only
          have hd1 : d.port = i := by
            rw [hg] at hd
            exact (Option.some.inj hd).symm
          have h1 : d ≠ .assigned i := by
            rintro rfl
            rcases hne with hne | hne <;> exact hne rfl
          rw [cell_ne h1]
          exact linked_congr (fun _ _ => next_cell) (hold (.inl hb)))
      exact ⟨_, _, _, this⟩
  | undefer4 hr hy =>
    subst hρ
    rename_i i k
    have hs := step_store hC h
    subst hs
    have hl' := own_cell hi (d := .deferred i) hg (.inr (by simp))
    have key : ∃ f', act t a.lists (.undefer i k) = some (k, f') ∧ (∀ t r, f' (.var t r) = a.lists (.var t r)) ∧
        (∀ d, d.port ≠ i → f' (.cell d) = a.lists (.cell d)) ∧ f' (.cell (.deferred i)) = [] ∧
        f' (.cell (.assigned i)) = a.lists (.cell (.deferred i)) := by
      have he := hi.void t i hb
      refine ⟨transfer (.cell (.deferred i)) (.cell (.assigned i)) a.lists, by simp [act, he], fun t r => by simp [transfer_apply],
        fun d hd => ?_, by simp [transfer_apply], by simp [transfer_apply, he]⟩
      have h1 : d ≠ .assigned i := by rintro rfl; exact hd rfl
      have h2 : d ≠ .deferred i := by rintro rfl; exact hd rfl
      simp [transfer_apply, h1, h2]
    obtain ⟨f', ha, hv, hcl, hde, has⟩ := key
    have := advance hi hC hc (.inr ha) (g' := some i) (b' := none)
        (s' := { s with threads := _, mem := put s.mem (.cell (.deferred i)) none }) rfl
        (fun _ _ => by first | dsimp only; rw [next_cell] | rw [next_cell]) (fun d' hd' => by
          try dsimp only
          refine cell_ne ?_
          rintro rfl
          exact hd' hg) (fun _ _ _ h => h) (fun i hj => by cases hj; exact hi.lock t _ hg)
        (by
          rw [show (fun r => f' (.var t r)) = fun r => a.lists (.var t r) from funext fun r => hv t r]
          exact .unlocking (regs_congr (m := s.mem) (fun _ _ _ => by first | dsimp only; rw [next_cell] | rw [next_cell]) hr))
        (fun d' hd' => hcl d' fun e => hd' (by rw [e]; exact hg)) (by simp)
        (fun d hd hne hold => by
          dsimp only
          have hd1 : d.port = i := by
            rw [hg] at hd
            exact (Option.some.inj hd).symm
          cases d with
          | deferred j =>
            have hd2 : j = i := hd1
            subst hd2
            rw [put_same, hde]
            rfl
          | assigned j =>
            have hd2 : j = i := hd1
            subst hd2
            rw [cell_ne (by simp), has, ← hy]
            exact linked_congr (fun _ _ => next_cell) hl')
    exact ⟨_, _, _, this⟩

end Cru.Mail
