import Verif.Proofs.MailStep
import Verif.Props.Pool
import Verif.Props.PoolMutate

/-!
# C147: packets are handed over as a whole, each to one worker
-/

namespace Cru.Mail

open Cru.Pool

variable {R I P : Type} [DecidableEq R] [DecidableEq I] [DecidableEq P] [Fintype P]

theorem tidy_start {cs : List (Client R I P)} {f : Place R I → List P} {h : Nat → R → Option P} {m : Loc I P → Option P} (hd' : Distinct f)
    (hr : Represents f h m) : Tidy (Fintype.card P) (fun _ => none) (fun _ => none) (start cs h m) ⟨cs, f⟩ := by
  refine ⟨by simp [start, Pool.init], hd', fun t C c hC hc => ?_, fun _ _ => ⟨rfl, rfl⟩, fun _ _ h => (by cases h), fun _ _ h => (by cases h), fun d _ => hr.2 d⟩
  have e : h t = hd fun r => f (.var t r) := funext fun r => linked_head (hr.1 t r)
  have hc' : cs[t]? = some c := hc
  simp only [start, Pool.init, List.getElem?_mapIdx, hc', Option.map_some, Option.some.injEq] at hC
  subst hC
  rw [e]
  exact .idle fun r => by
    have := hr.1 t r
    rwa [linked_head this] at this

theorem tidy_reach {cs : List (Client R I P)} {f : Place R I → List P} {h : Nat → R → Option P} {m : Loc I P → Option P} (hd : Distinct f)
    (hr : Represents f h m) {s : State (Loc I P) (Option P) I} (hs : Reach (start cs h m) s) :
    ∃ a g b, Post.Reach ⟨cs, f⟩ a ∧ Tidy (Fintype.card P) g b s a := by
  induction hs with
  | init => exact ⟨_, _, _, .init, tidy_start hd hr⟩
  | step t _ h ih =>
    obtain ⟨a, g, b, h1, h2⟩ := ih
    obtain ⟨a', g', b', h3, h4⟩ := tidy_step h2 h
    exact ⟨a', g', b', reach_trans h1 h3, h4⟩

/-- What each step does to the packets. -/
theorem reach_distinct {a a' : Post R I P} (h : a.Reach a') (hd : Distinct a.lists) :
    Distinct a'.lists ∧ ∀ p, (∃ x, p ∈ a'.lists x) ↔ ∃ x, p ∈ a.lists x := by
  induction h with
  | init => exact ⟨hd, fun _ => Iff.rfl⟩
  | step _ _ h2 ih =>
    have := act_distinct h2 ih.1
    exact ⟨this.1, fun p => (this.2 p).trans (ih.2 p)⟩

theorem ph_done {m : Loc I P → Option P} {c : Client R I P} {ρ : R → List P} {g b : Option I} (hp : Ph (Fintype.card P) m .done c ρ g b) :
    g = none ∧ b = none ∧ Regs m ρ ∧ compile (Fintype.card P) c (hd ρ) = .done := by
  have key : ∀ {C : Code (Loc I P) (Option P) I}, C = .done → Ph (Fintype.card P) m C c ρ g b →
      g = none ∧ b = none ∧ Regs m ρ ∧ compile (Fintype.card P) c (hd ρ) = .done := by
    intro C hC hp
    cases hp with
    | idle hr => exact ⟨rfl, rfl, hr, hC⟩
    | walk h1 h2 h3 h4 =>
      rename_i j q pre post
      cases j with
      | zero => omega
      | succ j => cases hC
    | _ => cases hC
  exact key rfl hp

theorem go {s : State (Loc I P) (Option P) I} {g b : Nat → Option I} {t : Nat} {a : Post R I P} {c k : Client R I P} {f' : Place R I → List P}
    (hi : Tidy (Fintype.card P) g b s a) (hC : s.threads[t]? = some .done) (hc : a.clients[t]? = some c) (ha : act t a.lists c = some (k, f'))
    (hf : ∀ d, f' (.cell d) = a.lists (.cell d)) (hg : g t = none) (hb : b t = none)
    (hcc : compile (Fintype.card P) k (hd fun r => f' (.var t r)) = .done) (hr : Regs s.mem fun r => f' (.var t r))
    (ih : ∀ {a : Post R I P}, Tidy (Fintype.card P) g b s a → s.threads[t]? = some .done → a.clients[t]? = some k →
      ∃ a', a.Reach a' ∧ Tidy (Fintype.card P) g b s a' ∧ a'.clients[t]? = some .done ∧ ∀ u, u ≠ t → a'.clients[u]? = a.clients[u]?) :
    ∃ a', a.Reach a' ∧ Tidy (Fintype.card P) g b s a' ∧ a'.clients[t]? = some .done ∧ ∀ u, u ≠ t → a'.clients[u]? = a.clients[u]? := by
  have := silent hi hC hc ha hf hg hb (by rw [← hcc]; exact .idle hr)
  obtain ⟨a', h1, h2, h3, h4⟩ := ih this.2 hC (by simp [hi.len ▸ lt_of_get hC])
  refine ⟨a', reach_trans this.1 h1, h2, h3, fun u hu => ?_⟩
  rw [h4 u hu]
  exact List.getElem?_set_ne (Ne.symm hu)

/-- A worker whose code has ended has nothing left to do, apart from what takes no access of memory. -/
theorem done_settles {s : State (Loc I P) (Option P) I} {g b : Nat → Option I} {t : Nat} (c : Client R I P) :
    ∀ {a : Post R I P}, Tidy (Fintype.card P) g b s a → s.threads[t]? = some .done → a.clients[t]? = some c →
    ∃ a', a.Reach a' ∧ Tidy (Fintype.card P) g b s a' ∧ a'.clients[t]? = some .done ∧ ∀ u, u ≠ t → a'.clients[u]? = a.clients[u]? := by
  induction c with
  | done =>
    intro a hi hC hc
    exact ⟨a, .init, hi, hc, fun _ _ => rfl⟩
  | shift r r' k ih =>
    intro a hi hC hc
    obtain ⟨hg, hb, hr, hcc⟩ := ph_done (hi.ph t _ _ hC hc)
    simp only [compile] at hcc
    have hlt : t < a.clients.length := hi.len ▸ lt_of_get hC
    split at hcc
    · rename_i x hx
      have hx' : a.lists (.var t r') ≠ [] := by
        intro e
        simp [hd, e] at hx
      exact go hi hC hc (k := k) (f' := a.lists) (by simp [act, hx']) (fun _ => rfl) hg hb hcc hr ih
    · rename_i hx
      have hx' : a.lists (.var t r') = [] := head_none.1 hx
      have e : Function.update (Function.update (hd fun r => a.lists (.var t r)) r' (hd (fun r => a.lists (.var t r)) r)) r none =
          hd fun x => transfer (.var t r) (.var t r') a.lists (.var t x) := by
        funext x
        simp only [hd, transfer_apply, Function.update_apply, Place.var.injEq, true_and]
        by_cases h1 : x = r <;> by_cases h2 : x = r' <;> by_cases h3 : r' = r <;> simp_all
      rw [e] at hcc
      refine go hi hC hc (k := k) (f' := transfer (.var t r) (.var t r') a.lists) (by simp [act, hx']) (fun d => by simp [transfer_apply]) hg hb hcc
        (fun x => ?_) ih
      simp only [transfer_apply, Place.var.injEq, true_and]
      split_ifs with h1 h2
      · exact hr r
      · rw [hx', List.append_nil]; exact hr r
      · rfl
      · exact hr x
  | take r d k ih =>
    intro a hi hC hc
    obtain ⟨hg, hb, hr, hcc⟩ := ph_done (hi.ph t _ _ hC hc)
    simp only [compile] at hcc
    split at hcc
    · rename_i x hx
      have hx' : a.lists (.var t r) ≠ [] := by
        intro e
        simp [hd, e] at hx
      exact go hi hC hc (k := k) (f' := a.lists) (by simp [act, hx']) (fun _ => rfl) hg hb hcc hr ih
    · cases hcc
  | wait r d k ih =>
    intro a hi hC hc
    obtain ⟨hg, hb, hr, hcc⟩ := ph_done (hi.ph t _ _ hC hc)
    simp only [compile] at hcc
    split at hcc
    · rename_i x hx
      have hx' : a.lists (.var t r) ≠ [] := by
        intro e
        simp [hd, e] at hx
      exact go hi hC hc (k := k) (f' := a.lists) (by simp [act, hx']) (fun _ => rfl) hg hb hcc hr ih
    · cases hcc
  | move r into k ih =>
    intro a hi hC hc
    obtain ⟨hg, hb, hr, hcc⟩ := ph_done (hi.ph t _ _ hC hc)
    simp only [compile] at hcc
    split at hcc
    · rename_i hx
      have hx' : a.lists (.var t r) = [] := head_none.1 hx
      exact go hi hC hc (k := k none) (f' := a.lists) (by simp [act, hx']) (fun _ => rfl) hg hb hcc hr (ih none)
    · cases hcc
  | send r d k ih =>
    intro a hi hC hc
    obtain ⟨hg, hb, hr, hcc⟩ := ph_done (hi.ph t _ _ hC hc)
    simp only [compile] at hcc
    split at hcc
    · rename_i hx
      have hx' : a.lists (.var t r) = [] := head_none.1 hx
      have e : transfer (.var t r) (.cell d) a.lists = a.lists := by
        funext c
        rw [transfer_apply]
        by_cases h1 : c = .cell d
        · subst h1
          simp [hx']
        · rw [if_neg h1]
          split_ifs with h2
          · rw [h2, hx']
          · rfl
      exact go hi hC hc (k := k) (f' := a.lists) (by simp [act, e]) (fun _ => rfl) hg hb hcc hr ih
    · rename_i p hx
      have hpos : 0 < Fintype.card P := Fintype.card_pos_iff.2 ⟨p⟩
      obtain ⟨j, hj⟩ : ∃ j, Fintype.card P = j + 1 := ⟨Fintype.card P - 1, by omega⟩
      rw [hj] at hcc
      cases hcc
  | undefer i k ih =>
    intro a hi hC hc
    obtain ⟨hg, hb, hr, hcc⟩ := ph_done (hi.ph t _ _ hC hc)
    cases hcc

theorem all_settle {s : State (Loc I P) (Option P) I} {g b : Nat → Option I} (he : Ended s) (n : Nat) {a : Post R I P}
    (hi : Tidy (Fintype.card P) g b s a) :
    ∃ a', a.Reach a' ∧ Tidy (Fintype.card P) g b s a' ∧ ∀ t < n, ∀ c, a'.clients[t]? = some c → c = .done := by
  induction n with
  | zero => exact ⟨a, .init, hi, fun t h => absurd h (by omega)⟩
  | succ n ih =>
    obtain ⟨a', h1, h2, h3⟩ := ih
    cases hc : a'.clients[n]? with
    | none =>
      refine ⟨a', h1, h2, fun t ht c hct => ?_⟩
      by_cases e : t = n
      · subst e; rw [hc] at hct; cases hct
      · exact h3 t (by omega) c hct
    | some c =>
      have hlt : n < s.threads.length := by
        rw [h2.len]
        by_contra hx
        rw [List.getElem?_eq_none (by omega)] at hc
        cases hc
      have hd : s.threads[n]? = some .done := by
        rw [List.getElem?_eq_getElem hlt, he _ (List.getElem_mem hlt)]
      obtain ⟨a'', h4, h5, h6, h7⟩ := done_settles c h2 hd hc
      refine ⟨a'', reach_trans h1 h4, h5, fun t ht c' hct => ?_⟩
      by_cases e : t = n
      · subst e; rw [h6] at hct; cases hct; rfl
      · rw [h7 t e] at hct
        exact h3 t (by omega) c' hct

/-- C147: whatever workers do, and in whatever order their accesses of memory take place, it's as if lists of packets were handed over and taken
at once, and received in the order they are linked: the list found in a field of a port whose mutex isn't held is the one that is there in some
such sequence of steps. -/
theorem C147_refines {cs : List (Client R I P)} {f : Place R I → List P} {h : Nat → R → Option P} {m : Loc I P → Option P} (hd : Distinct f)
    (hr : Represents f h m) {s : State (Loc I P) (Option P) I} (hs : Reach (start cs h m) s) :
    ∃ a, Post.Reach ⟨cs, f⟩ a ∧ (∀ d, s.writer d.port = none → Linked s.mem none (s.mem (.cell d)) (a.lists (.cell d))) ∧
      Distinct a.lists ∧ ∀ p, (∃ x, p ∈ a.lists x) ↔ ∃ x, p ∈ f x := by
  obtain ⟨a, g, b, h1, h2⟩ := tidy_reach hd hr hs
  refine ⟨a, h1, fun d hw => h2.cells d fun t i hb hdi => ?_, reach_distinct h1 hd⟩
  have hdp : d.port = i := by rw [hdi]; rfl
  have hg : g t = some i := by
    cases hD : s.threads[t]? with
    | none => rw [(h2.gone t hD).2] at hb; cases hb
    | some D => exact broken_held (h2.ph t D _ hD (List.getElem?_eq_getElem (h2.len ▸ lt_of_get hD))) hb
  rw [hdp, h2.lock t i hg] at hw
  cases hw

/-- C147: if all of them are done, then all that they were to do has been done in such a sequence of steps, and all the lists are where they would
be then. -/
theorem C147_ended {cs : List (Client R I P)} {f : Place R I → List P} {h : Nat → R → Option P} {m : Loc I P → Option P} (hd : Distinct f)
    (hr : Represents f h m) {s : State (Loc I P) (Option P) I} (hs : Reach (start cs h m) s) (he : Ended s) :
    ∃ a, Post.Reach ⟨cs, f⟩ a ∧ (∀ c ∈ a.clients, c = .done) ∧ (∀ d, Linked s.mem none (s.mem (.cell d)) (a.lists (.cell d))) ∧
      (∀ t < cs.length, ∀ r, Linked s.mem none (a.lists (.var t r)).head? (a.lists (.var t r))) ∧
      Distinct a.lists ∧ ∀ p, (∃ x, p ∈ a.lists x) ↔ ∃ x, p ∈ f x := by
  obtain ⟨a₀, g, b, h1, h2⟩ := tidy_reach hd hr hs
  obtain ⟨a, h3, h4, h5⟩ := all_settle he a₀.clients.length h2
  have hlen : ∀ {a a' : Post R I P}, a.Reach a' → a'.clients.length = a.clients.length := by
    intro a a' h
    induction h with
    | init => rfl
    | step _ _ _ ih => simpa using ih
  have hl := hlen h3
  have hl' := hlen h1
  have hdone : ∀ t, t < cs.length → s.threads[t]? = some .done := by
    intro t ht
    have : t < s.threads.length := by
      rw [h2.len, hl']
      exact ht
    rw [List.getElem?_eq_getElem this, he _ (List.getElem_mem this)]
  refine ⟨a, reach_trans h1 h3, fun c hc => ?_, fun d => h4.cells d fun t i hb _ => ?_, fun t ht r => ?_, reach_distinct (reach_trans h1 h3) hd⟩
  · obtain ⟨i, hi, rfl⟩ := List.mem_iff_getElem.1 hc
    exact h5 i (hl ▸ hi) _ (List.getElem?_eq_getElem hi)
  · cases hD : s.threads[t]? with
    | none => rw [(h4.gone t hD).2] at hb; cases hb
    | some D =>
      have hlt := lt_of_get hD
      have hx := hdone t (by rw [h2.len, hl'] at hlt; exact hlt)
      have := ph_done (h4.ph t _ _ hx (List.getElem?_eq_getElem (h4.len ▸ hlt)))
      rw [this.2.1] at hb
      cases hb
  · have hx := hdone t ht
    exact (ph_done (h4.ph t _ _ hx (List.getElem?_eq_getElem (h4.len ▸ lt_of_get hx)))).2.2.1 r

theorem compile_access {n : Nat} {x : Loc I P} {w : Bool} (c : Client R I P) :
    ∀ h : R → Option P, (compile n c h).Accesses x w → ∃ r q, h r = some q ∧ x = .next q := by
  induction c with
  | done => intro h ha; cases ha
  | shift r r' k ih =>
    intro h ha
    simp only [compile] at ha
    split at ha
    · exact ih _ ha
    · obtain ⟨r0, q, h1, h2⟩ := ih _ ha
      simp only [Function.update_apply] at h1
      split_ifs at h1
      · exact ⟨_, q, h1, h2⟩
      · exact ⟨_, q, h1, h2⟩
  | take r d k ih =>
    intro h ha
    simp only [compile] at ha
    split at ha
    · exact ih _ ha
    · cases ha
  | wait r d k ih =>
    intro h ha
    simp only [compile] at ha
    split at ha
    · exact ih _ ha
    · cases ha
  | move r into k ih =>
    intro h ha
    simp only [compile] at ha
    split at ha
    · exact ih _ _ ha
    · rename_i p hp
      exact ⟨r, p, hp, ha.1.symm⟩
  | send r d k ih =>
    intro h ha
    simp only [compile] at ha
    split at ha
    · exact ih _ ha
    · rename_i p hp
      cases n with
      | zero => cases ha
      | succ n => exact ⟨r, p, hp, ha.1.symm⟩
  | undefer i k ih => intro h ha; cases ha

/-- What a worker accesses next is either a packet of its own or a field of a port whose mutex it has. -/
theorem ph_access {n : Nat} {m : Loc I P → Option P} {c : Client R I P} {ρ : R → List P} {g b : Option I} {C : Code (Loc I P) (Option P) I}
    {x : Loc I P} {w : Bool} (hp : Ph n m C c ρ g b) (ha : C.Accesses x w) :
    (∃ q r, x = .next q ∧ q ∈ ρ r) ∨ ∃ d, x = .cell d ∧ g = some d.port := by
  cases hp with
  | idle hr =>
    obtain ⟨r, q, h1, h2⟩ := compile_access c (hd ρ) ha
    exact .inl ⟨q, r, h2, List.mem_of_head? h1⟩
  | unlocking hr => cases ha
  | take1 hr hx => exact .inr ⟨_, ha.1.symm, rfl⟩
  | take2 hr hx h3 h4 => exact .inr ⟨_, ha.1.symm, rfl⟩
  | wait1 hr hx => exact .inr ⟨_, ha.1.symm, rfl⟩
  | move1 hr hl => exact .inl ⟨_, _, ha.1.symm, by rw [hl]; exact List.mem_cons_self⟩
  | move2 ho hl hk hn => exact .inl ⟨_, _, ha.1.symm, by rw [hl]; exact List.mem_cons_self⟩
  | move3 ho hl hk => exact .inl ⟨_, _, ha.1.symm, by rw [hl]; exact List.mem_cons_self⟩
  | walk h1 h2 h3 h4 =>
    rename_i r d k p j q pre post
    cases j with
    | zero => cases ha
    | succ j => exact .inl ⟨q, r, ha.1.symm, by rw [h3]; simp⟩
  | send1 hr hp hl => cases ha
  | send2 hr hp hl => exact .inr ⟨_, ha.1.symm, rfl⟩
  | send3 hr hp hl hx => exact .inl ⟨_, _, ha.1.symm, by rw [hl]; simp⟩
  | send4 ho hp hl => exact .inr ⟨_, ha.1.symm, rfl⟩
  | undefer1 hr => exact .inr ⟨_, ha.1.symm, rfl⟩
  | undefer2 hr hm => exact .inr ⟨_, ha.1.symm, rfl⟩
  | undefer3 hr hm hy => exact .inr ⟨_, ha.1.symm, rfl⟩
  | undefer4 hr hy => exact .inr ⟨_, ha.1.symm, rfl⟩

/-- C147: no two workers ever access the same pointer at the same time, unless both of them only load it. -/
theorem C147_race_free {cs : List (Client R I P)} {f : Place R I → List P} {h : Nat → R → Option P} {m : Loc I P → Option P} (hd : Distinct f)
    (hr : Represents f h m) {s : State (Loc I P) (Option P) I} (hs : Reach (start cs h m) s) : ¬ Race s := by
  rintro ⟨t, u, C, D, x, w, htu, hC, hD, h1, h2⟩
  obtain ⟨a, g, b, -, hi⟩ := tidy_reach hd hr hs
  have p1 := hi.ph t C _ hC (List.getElem?_eq_getElem (hi.len ▸ lt_of_get hC))
  have p2 := hi.ph u D _ hD (List.getElem?_eq_getElem (hi.len ▸ lt_of_get hD))
  rcases ph_access p1 h1 with ⟨q, r, rfl, hq⟩ | ⟨d, rfl, hg⟩ <;> rcases ph_access p2 h2 with ⟨q', r', e, hq'⟩ | ⟨d', e, hg'⟩
  · cases e
    have := hi.dist.2 _ _ _ hq hq'
    simp only [Place.var.injEq] at this
    exact htu this.1
  · cases e
  · cases e
  · cases e
    have e1 := hi.lock t _ hg
    have e2 := hi.lock u _ hg'
    rw [e1] at e2
    exact htu (Option.some.inj e2)

theorem polite_walk {kids : List Nat} (j : Nat) (q : P) {k : P → Code (Loc I P) (Option P) I} (h : ∀ q, Polite kids none (k q)) :
    Polite kids none (walk j q k) := by
  induction j generalizing q with
  | zero => exact .done
  | succ j ih =>
    refine .load fun x => ?_
    cases x with
    | none => exact h q
    | some q => exact ih q

theorem polite_compile {n : Nat} (c : Client R I P) : ∀ h : R → Option P, Polite [] none (compile n c h) := by
  induction c with
  | done => intro h; exact .done
  | shift r r' k ih =>
    intro h
    simp only [compile]
    split <;> exact ih _
  | take r d k ih =>
    intro h
    simp only [compile]
    split
    · exact ih _
    · exact .wrlock (.load fun x => .store (.unlock (ih _)))
  | wait r d k ih =>
    intro h
    simp only [compile]
    split
    · exact ih _
    · refine .wrlock (.load fun x => ?_)
      cases x with
      | none => exact .unlock (.wrlock (.load fun x => .store (.unlock (ih _))))
      | some q => exact .store (.unlock (ih _))
  | move r into k ih =>
    intro h
    simp only [compile]
    split
    · exact ih _ _
    · refine .load fun x => .store (.load fun y => ?_)
      cases y with
      | none => exact .store (ih _ _)
      | some q => exact .done
  | send r d k ih =>
    intro h
    simp only [compile]
    split
    · exact ih _
    · exact polite_walk _ _ fun q => .wrlock (.load fun x => .store (.store (.unlock (ih _))))
  | undefer i k ih =>
    intro h
    simp only [compile]
    refine .wrlock (.load fun x => ?_)
    cases x with
    | some _ => exact .unlock (ih _)
    | none =>
      refine .load fun y => .store ?_
      cases y with
      | none => exact .unlock (ih _)
      | some _ => exact .store (.unlock (ih _))

/-- C147: workers get to their ends in handling packets, whatever order they're scheduled in, as far as mutexes are concerned. -/
theorem C147_ends {cs : List (Client R I P)} {h : Nat → R → Option P} {m : Loc I P → Option P} (F : Nat → State (Loc I P) (Option P) I)
    (h0 : F 0 = start cs h m)
    (hf : ∀ i, (∃ t, step t (F i) = some (F (i + 1))) ∨ (∀ t, step t (F i) = none) ∧ F (i + 1) = F i) : ∃ i, Ended (F i) := by
  refine C144_ends (fun c hc => ?_) F h0 hf
  obtain ⟨i, hi, rfl⟩ := List.mem_mapIdx.1 hc
  exact polite_compile _ _

/-! ## Fetching without the mutex -/

/-- Worker 0 has packet 1 for a port where packet 0 is already.  Worker 1 fetches the list of that port without the mutex, but all at once, and
leaves it in the field `deferred`, where one can see what it gets. -/
def exFetch : State (Loc Unit (Fin 2)) (Option (Fin 2)) Unit :=
  Pool.init [compile 2 (.send () (.assigned ()) .done) fun _ => some 1, fetchAndStore () fun x => .store (.cell (.deferred ())) x .done]
    fun a => if a = .cell (.assigned ()) then some 0 else none

/-- C147: with the alternative way of fetching lists, a packet can be received and remain in the port nevertheless, so that it will be received
again: worker 0 gets as far as to link its packet to those at the port, then worker 1 fetches them, and then worker 0 goes on. -/
theorem C147_fetch : ∃ s, run [0, 0, 0, 0, 1, 1, 0, 0, 1] exFetch = some s ∧ Ended s ∧
    Linked s.mem none (s.mem (.cell (.assigned ()))) [1, 0] ∧ Linked s.mem none (s.mem (.cell (.deferred ()))) [0] := by
  have : ∃ s, run [0, 0, 0, 0, 1, 1, 0, 0, 1] exFetch = some s ∧ s.threads = [.done, .done] ∧
      Linked s.mem none (s.mem (.cell (.assigned ()))) [1, 0] ∧ Linked s.mem none (s.mem (.cell (.deferred ()))) [0] :=
    ⟨_, rfl, rfl, ⟨rfl, rfl, rfl⟩, ⟨rfl, rfl⟩⟩
  obtain ⟨s, h1, h2, h3⟩ := this
  refine ⟨s, h1, fun c hc => ?_, h3⟩
  rw [h2] at hc
  simpa using hc

/-! ## Examples -/

/-- Two workers, where 0 sends two packets to port 1, whose packets are deferred by worker 1 if they are too many. -/
def exClients : List (Client Bool (Fin 2) (Fin 3)) :=
  [.move false (fun _ => true) fun _ => .move false (fun _ => true) fun _ => .send true (.assigned 1) .done,
   .wait false (.assigned 1) <| .move false (fun p => if p = 0 then true else false) fun _ => .send true (.deferred 1) <| .undefer 1 .done]

def exLists : Place Bool (Fin 2) → List (Fin 3)
  | .var 0 false => [0, 1]
  | .cell (.assigned 1) => [2]
  | _ => []

def exHeads : Nat → Bool → Option (Fin 3)
  | 0, false => some 0
  | _, _ => none

def exMem : Loc (Fin 2) (Fin 3) → Option (Fin 3)
  | .cell (.assigned 1) => some 2
  | .next 0 => some 1
  | _ => none

theorem ex_mem {a : Place Bool (Fin 2)} {p : Fin 3} (h : p ∈ exLists a) :
    (a = .var 0 false ∧ p ≠ 2) ∨ (a = .cell (.assigned 1) ∧ p = 2) := by
  unfold exLists at h
  split at h
  · refine .inl ⟨rfl, ?_⟩
    rintro rfl
    simp at h
  · exact .inr ⟨rfl, by simpa using h⟩
  · simp at h

/-- The hypotheses of `C147_refines`, `C147_ended` and `C147_race_free`. -/
theorem ex_start : Distinct exLists ∧ Represents exLists exHeads exMem := by
  refine ⟨⟨fun a => ?_, fun a b p ha hb => ?_⟩, fun t r => ?_, fun d => ?_⟩
  · unfold exLists
    split <;> decide
  · rcases ex_mem ha with ⟨rfl, h1⟩ | ⟨rfl, h1⟩ <;> rcases ex_mem hb with ⟨rfl, h2⟩ | ⟨rfl, h2⟩
    · rfl
    · exact absurd h2 h1
    · exact absurd h1 h2
    · rfl
  · cases t with
    | zero => cases r <;> simp [exLists, exHeads, exMem, Linked]
    | succ t => simp [exLists, exHeads, Linked]
  · cases d with
    | assigned i =>
      by_cases h : i = 1
      · subst h
        exact ⟨rfl, rfl⟩
      · have : i = 0 := by omega
        subst this
        rfl
    | deferred i => rfl

/-- An execution in which worker 1 gets all three packets at once and keeps them. -/
example : ∃ s, Reach (start exClients exHeads exMem) s ∧ Ended s ∧ s.mem (.cell (.assigned 1)) = none ∧ s.mem (.next 1) = some 0 ∧
    s.mem (.next 0) = some 2 ∧ s.mem (.next 2) = none := by
  have : ∃ s, run (List.replicate 15 0 ++ List.replicate 13 1) (start exClients exHeads exMem) = some s ∧ s.threads = [.done, .done] ∧
      s.mem (.cell (.assigned 1)) = none ∧ s.mem (.next 1) = some 0 ∧ s.mem (.next 0) = some 2 ∧ s.mem (.next 2) = none :=
    ⟨_, rfl, rfl, rfl, rfl, rfl, rfl⟩
  obtain ⟨s, h1, h2, h3⟩ := this
  refine ⟨s, run_reach _ .init h1, fun c hc => ?_, h3⟩
  rw [h2] at hc
  simpa using hc

end Cru.Mail
