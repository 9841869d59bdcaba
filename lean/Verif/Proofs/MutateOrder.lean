import Verif.Proofs.MutateGood
import Mathlib.Algebra.Order.Group.Multiset

/-! # Mutation in order, mutation regardless of order, and termination -/

namespace Cru.Mutate

open Net

variable {n : Nat} {N V L : Type} [DecidableEq N] {lane : N → Fin n} {far : N → Bool} {surv : Fin n → List N} {k : Kernel V L} {p : Plan} {g : Gr N V L}

theorem arriving_congr {turn turn' : N → Prop} {post post' : N → List (L × N)} {m : N}
    (h : ∀ t ∈ prior p g m, (turn t ↔ turn' t) ∧ (turn t → post t = post' t)) : arriving k p g turn post m = arriving k p g turn' post' m := by
  unfold arriving
  split
  · rfl
  · refine patch_congr fun e he => ?_
    obtain ⟨h1, h2⟩ := h e.2 (List.mem_map.2 ⟨e, he, rfl⟩)
    by_cases c : turn e.2
    · rw [if_pos c, if_pos (h1.1 c), h2 c]
    · rw [if_neg c, if_neg fun c' => c (h1.2 c')]

theorem arriving_targets {turn : N → Prop} {post : N → List (L × N)} {m : N} :
    (arriving k p g turn post m).map Prod.snd = prior p g m := by
  unfold arriving
  split
  · rfl
  · exact patch_targets _ _

/-! ## In order -/

/-- Edges are found at both ends. -/
structure Mutual (p : Plan) (g : Gr N V L) : Prop where
  prior : ∀ m ∈ g.nodes, ∀ t ∈ prior p g m, t ∈ g.nodes
  after : ∀ m ∈ g.nodes, ∀ e ∈ after p g m, e.2 ∈ g.nodes
  sym : ∀ m ∈ g.nodes, ∀ t ∈ g.nodes, t ∈ (Mutate.after p g m).map Prod.snd ↔ m ∈ Mutate.prior p g t

/-- The order of things. -/
structure Order (far : N → Bool) (p : Plan) (g : Gr N V L) (mark : N → Mark) (log : List N) (bag : Multiset (Packet n N)) : Prop where
  turn : ∀ m, mark m = .mutated → Turn (prior p g) (fun t => far t = true) m
  done : ∀ m, mark m = .mutated → ∀ t ∈ prior p g m, far t = true ∨ mark t = .mutated
  order : InTurn (prior p g) (fun t => far t = true) log.reverse
  sent : ∀ m, .node m ∈ bag → ∃ t ∈ prior p g m, mark t = .mutated
  pend : ∀ m ∈ g.nodes, mark m = .clear → ∀ t ∈ prior p g m, mark t = .mutated → (∀ t ∈ prior p g m, mark t ≠ .clear) → .node m ∈ bag

/-- What's been said of mutation in order, for given omissions. -/
abbrev InOrder (far : N → Bool) (k : Kernel V L) (p : Plan) (g : Gr N V L) : N → V → List (L × N) → Prop :=
  Becomes k p g (Turn (prior p g) (fun t => far t = true))

omit [DecidableEq N] in
theorem Turn.near {prior : N → List N} {omitted : N → Prop} {m : N} (h : Turn prior omitted m) : ¬ omitted m := by
  cases h <;> assumption

theorem Order.becomes {s s' : Job n N V L} {m : N} {bag : Multiset (Packet n N)} (hM : Mutual p g)
    (hg : Good lane far k p g (InOrder far k p g) s) (hx : Order far p g s.mark s.log bag) (hm : s.mark m = .clear) (hmn : m ∈ g.nodes)
    (hq : ∀ t ∈ prior p g m, s.mark t ≠ .clear) (hs' : mutate k p s m = .ok s') :
    ∃ v es, Fired k p s m v es s' ∧ InOrder far k p g m v es := by
  obtain ⟨v, es, h1, h2, h3⟩ := mutate_ok hs'
  refine ⟨v, es, h3, ?_⟩
  have hne : s.mark m ≠ .mutated := by rw [hm]; simp
  have hpt : ∀ t ∈ prior p g m, s.mark t = .mutated ∨ far t = true := by
    intro t ht
    rcases e : s.mark t with _ | _ | _ | _
    · exact absurd e (hq t ht)
    · exact .inl rfl
    · exact .inr ((hg.far t).1 e)
    · exact absurd e (hg.mark t)
  have hturn : ∀ t ∈ prior p g m, (s.mark t = .mutated ↔ Turn (prior p g) (fun t => far t = true) t) := by
    intro t ht
    refine ⟨hx.turn t, fun h => (hpt t ht).resolve_right h.near⟩
  -- nodes after this one haven't been mutated
  have hafter : ∀ e ∈ after p g m, s.vertex e.2 = g.vertex e.2 := by
    intro e he
    refine (hg.kept e.2 fun hmu => ?_).1
    have hpr := (hM.sym m hmn e.2 (hM.after m hmn e he)).1 (List.mem_map.2 ⟨e, he, rfl⟩)
    rcases hx.done _ hmu m hpr with h | h
    · rw [(hg.far m).2 h] at hm; cases hm
    · exact hne h
  have hold : (s.post p m).map (fun e => (e.1, s.vertex e.2)) = (after p g m).map fun e => (e.1, g.vertex e.2) := by
    rw [(hg.kept m hne).2]
    exact List.map_congr_left fun e he => by rw [hafter e he]
  have hnew : s.pre p m = arriving k p g (Turn (prior p g) (fun t => far t = true)) (s.post p) m := by
    rw [hg.pre]
    exact arriving_congr fun t ht => ⟨hturn t ht, fun _ => rfl⟩
  refine .intro s.vertex (s.post p) (fun t ht htu => hg.val t ((hturn t ht).2 htu)) (fun t _ ht => (hg.kept t fun h => ht (hx.turn t h)).1) ?_ ?_
  · dsimp only
    rw [← hold, ← hnew]
    rw [(hg.kept m hne).1] at h1
    by_cases c : p.forward = true
    · rw [if_pos ((forward_iff p).1 c)]
      simp only [Job.pre, Job.post, if_pos c]
      exact h1
    · rw [if_neg fun h => c ((forward_iff p).2 h)]
      simp only [Job.pre, Job.post, if_neg c]
      exact h1
  · rw [(hg.kept m hne).2] at h2
    unfold Relabelled at h2 ⊢
    split
    · rename_i he
      rw [he] at h2; exact h2
    · rename_i f he
      rw [he] at h2
      dsimp only at h2
      clear hold hnew h3
      revert hafter
      generalize after p g m = es₀ at h2 ⊢
      intro hafter
      revert hafter
      induction h2 with
      | nil => intro _; exact .nil
      | cons hh _ ih =>
        intro ha
        exact .cons ⟨by rw [← ha _ (by simp)]; exact hh.1, hh.2⟩ (ih fun e he => ha e (by simp [he]))

theorem Order.fire {s s' : Job n N V L} {m : N} {bag : Multiset (Packet n N)} (hM : Mutual p g)
    (hg : Good lane far k p g (InOrder far k p g) s) (hx : Order far p g s.mark s.log bag) (hm : s.mark m = .clear) (hmn : m ∈ g.nodes)
    (hq : ∀ t ∈ prior p g m, s.mark t ≠ .clear) (hsome : prior p g m = [] ∨ ∃ t ∈ prior p g m, s.mark t = .mutated)
    (hs' : mutate k p s m = .ok s') :
    (∃ v es, Fired k p s m v es s' ∧ InOrder far k p g m v es) ∧ Order far p g s'.mark s'.log (((deps n p g m : List (Packet n N)) : Multiset (Packet n N)) + bag) := by
  obtain ⟨v, es, hf, hv⟩ := hx.becomes hM hg hm hmn hq hs'
  refine ⟨⟨v, es, hf, hv⟩, ?_⟩
  have hnear : ¬ far m = true := fun h => by rw [(hg.far m).2 h] at hm; cases hm
  have hpt : ∀ t ∈ prior p g m, s.mark t = .mutated ∨ far t = true := by
    intro t ht
    rcases e : s.mark t with _ | _ | _ | _
    · exact absurd e (hq t ht)
    · exact .inl rfl
    · exact .inr ((hg.far t).1 e)
    · exact absurd e (hg.mark t)
  have hmono : ∀ t, s.mark t = .mutated → s'.mark t = .mutated := by
    intro t ht
    rw [hf.mark]
    by_cases c : t = m
    · subst c; rw [Function.update_self]
    · rw [Function.update_of_ne c]; exact ht
  have hback : ∀ t, s'.mark t = .mutated → t = m ∨ s.mark t = .mutated := by
    intro t ht
    by_cases c : t = m
    · exact .inl c
    · rw [hf.mark, Function.update_of_ne c] at ht; exact .inr ht
  refine ⟨fun t ht => ?_, fun t ht u hu => ?_, ?_, fun t ht => ?_, fun t htn htc u hu hum hall => ?_⟩
  · rcases hback t ht with rfl | ht
    · rcases hsome with h0 | ⟨u, hu, hum⟩
      · exact .first hnear h0
      · exact .next hnear (fun w hw hwf => hx.turn w ((hpt w hw).resolve_right hwf)) hu (hx.turn u hum)
    · exact hx.turn t ht
  · rcases hback t ht with rfl | ht
    · exact (hpt u hu).symm.imp id (hmono u)
    · exact (hx.done t ht u hu).imp id (hmono u)
  · rw [hf.log, List.reverse_cons]
    intro xs t ys e u hu
    rcases List.eq_nil_or_concat ys with rfl | ⟨ys', y, rfl⟩
    · rw [show xs ++ [t] = xs ++ [t] from rfl] at e
      obtain ⟨rfl, e2⟩ := List.append_inj' e rfl
      obtain rfl : m = t := by simpa using e2
      rcases hpt u hu with h | h
      · exact .inr (List.mem_reverse.2 ((hg.log u).2 h))
      · exact .inl h
    · have e' : s.log.reverse ++ [m] = (xs ++ t :: ys') ++ [y] := by rw [e]; simp
      obtain ⟨e1, -⟩ := List.append_inj' e' rfl
      exact hx.order xs t ys' e1 u hu
  · rcases Multiset.mem_add.1 ht with ht | ht
    · have ht' := Multiset.mem_coe.1 ht
      simp only [deps, List.mem_map] at ht'
      obtain ⟨x, ⟨e, he, rfl⟩, hx'⟩ := ht'
      cases hx'
      exact ⟨m, (hM.sym m hmn e.2 (hM.after m hmn e he)).1 (List.mem_map.2 ⟨e, he, rfl⟩), by rw [hf.mark, Function.update_self]⟩
    · obtain ⟨u, hu, hum⟩ := hx.sent t ht
      exact ⟨u, hu, hmono u hum⟩
  · by_cases c : m ∈ prior p g t
    · refine Multiset.mem_add.2 (.inl (Multiset.mem_coe.2 ?_))
      exact List.mem_map.2 ⟨t, (hM.sym m hmn t htn).2 c, rfl⟩
    · have hne : ∀ w ∈ prior p g t, w ≠ m := fun w hw e => c (e ▸ hw)
      refine Multiset.mem_add.2 (.inr (hx.pend t htn ?_ u hu ?_ fun w hw => ?_))
      · rw [hf.mark] at htc
        by_cases c' : t = m
        · subst c'; exact hm
        · rw [Function.update_of_ne c'] at htc; exact htc
      · exact (hback u hum).resolve_left (hne u hu)
      · have := hall w hw
        rw [hf.mark, Function.update_of_ne (hne w hw)] at this
        exact this

theorem order_extra (hord : p.unordered = false) (hM : Mutual p g) (hc : Closed p g surv)
    (hsurv : ∀ i, ∀ m ∈ surv i, prior p g m = []) : Extra lane far surv k p g (InOrder far k p g) (Order far p g) where
  ping h := ⟨h.turn, h.done, h.order, fun m hm => h.sent m (Multiset.mem_cons_of_mem hm), fun m a b t c d e =>
    (Multiset.mem_cons.1 (h.pend m a b t c d e)).resolve_left (by simp)⟩
  addPing h := ⟨h.turn, h.done, h.order, fun m hm => h.sent m ((Multiset.mem_cons.1 hm).resolve_left (by simp)), fun m a b t c d e =>
    Multiset.mem_cons_of_mem (h.pend m a b t c d e)⟩
  drop {mark log m bag} h hd := ⟨h.turn, h.done, h.order, fun m hm => h.sent m (Multiset.mem_cons_of_mem hm), fun m' a b t c d e => by
    rcases Multiset.mem_cons.1 (h.pend m' a b t c d e) with h1 | h1
    · injection h1 with h1
      subst h1
      rcases hd with hd | ⟨-, u, hu, hd⟩
      · exact absurd b hd
      · exact absurd hd (e u hu)
    · exact h1⟩
  first {s m bag s'} hg hs hx hm hms hs' := by
    have h0 := hsurv _ m hms
    exact hx.fire hM hg hm (hc.surv _ m hms) (by rw [h0]; simp) (.inl h0) hs'
  next {s m bag s'} hg hs hx hm _ hbag hmn hq hs' :=
    hx.fire hM hg hm hmn (hq hord) (.inr (hx.sent m hbag)) hs'

/-- At the end, the nodes mutated are those whose turn comes. -/
theorem Order.turn_iff {s : Job n N V L} (hM : Mutual p g) (hg : Good lane far k p g (InOrder far k p g) s) (hx : Order far p g s.mark s.log (0 : Multiset (Packet n N)))
    (hall : ∀ m ∈ g.nodes, far m = false → prior p g m = [] → s.mark m = .mutated) {m : N} (hm : m ∈ g.nodes) :
    s.mark m = .mutated ↔ Turn (prior p g) (fun t => far t = true) m := by
  refine ⟨hx.turn m, fun h => ?_⟩
  induction h with
  | first h1 h2 => exact hall _ hm (by simpa using h1) h2
  | @next m t h1 _ h3 _ ih1 ih2 =>
    have ht := ih2 (hM.prior _ hm _ h3)
    by_contra hne
    have hclear : s.mark m = .clear := by
      rcases e : s.mark m with _ | _ | _ | _
      · rfl
      · exact absurd e hne
      · exact absurd ((hg.far m).1 e) h1
      · exact absurd e (hg.mark m)
    have := hx.pend m hm hclear t h3 ht fun u hu => by
      by_cases c : far u = true
      · rw [(hg.far u).2 c]; simp
      · rw [ih1 u hu c (hM.prior m hm u hu)]; simp
    simp at this

/-! ## Regardless of order -/

/-- The kernel looks at nothing that it changes. -/
def Kernel.Blind (k : Kernel V L) : Prop :=
  k.vop = none ∨ (k.eop = none ∧ ∀ v ins outs ins' outs' v', ins.map Prod.fst = ins'.map Prod.fst →
    outs.map Prod.fst = outs'.map Prod.fst → Revised k v ins outs v' → Revised k v ins' outs' v')

theorem Kernel.Simultaneous.blind {k : Kernel V L} (h : k.Simultaneous) : k.Blind := by
  rcases h with h | ⟨h1, h2, h3⟩
  · exact .inl h
  · refine .inr ⟨h1, fun v ins outs ins' outs' v' _ _ hr => ?_⟩
    unfold Revised at hr ⊢
    rw [h2, h3] at hr ⊢
    exact hr

theorem Kernel.Unconstrained.blind {k : Kernel V L} (h : k.Unconstrained) : k.Blind := by
  rcases h with h | ⟨h1, h2⟩
  · exact .inl h
  · refine .inr ⟨h1, fun v ins outs ins' outs' v' hi ho hr => ?_⟩
    unfold Revised at hr ⊢
    split
    · rename_i he
      rw [he] at hr; exact hr
    · rename_i f he
      rw [he] at hr
      dsimp only at hr
      rw [← hr]
      exact (h2 f he _ _ _ _ _ (by split <;> simp [hi]) (by split <;> simp [ho])).symm

theorem blind_directly {s s' : Job n N V L} {m : N} (hk : k.Blind) (hg : Good lane far k p g (Directly k p g) s) (hm : s.mark m = .clear)
    (hs' : mutate k p s m = .ok s') : ∃ v es, Fired k p s m v es s' ∧ Directly k p g m v es := by
  obtain ⟨v, es, h1, h2, h3⟩ := mutate_ok hs'
  have hne : s.mark m ≠ .mutated := by rw [hm]; simp
  refine ⟨v, es, h3, ?_⟩
  rw [(hg.kept m hne).1] at h1
  rw [(hg.kept m hne).2] at h2
  rcases hk with hk | ⟨hk, hl⟩
  · have hv : s.vertex = g.vertex := by
      funext t
      by_cases c : s.mark t = .mutated
      · have := (hg.val t c).1
        unfold Revised at this
        rw [hk] at this
        exact this
      · exact (hg.kept t c).1
    rw [hv] at h2
    refine ⟨?_, h2⟩
    unfold Revised at h1 ⊢
    rw [hk] at h1 ⊢
    exact h1
  · have hpost : s.post p = after p g := by
      funext t
      by_cases c : s.mark t = .mutated
      · have := (hg.val t c).2
        unfold Relabelled at this
        rw [hk] at this
        exact this
      · exact (hg.kept t c).2
    have hpre : s.pre p = before p g := by
      funext t
      have := hg.pre t
      unfold arriving at this
      rw [hk] at this
      exact this
    have hio : s.inn = g.inn ∧ s.out = g.out := by
      by_cases c : p.forward = true
      · have c' := (forward_iff p).1 c
        refine ⟨funext fun t => ?_, funext fun t => ?_⟩
        · have := congrFun hpre t
          simpa only [Job.pre, if_pos c, before, if_pos c'] using this
        · have := congrFun hpost t
          simpa only [Job.post, if_pos c, after, if_pos c'] using this
      · have c' : ¬ p.backwards = p.remoteFirst := fun h => c ((forward_iff p).2 h)
        refine ⟨funext fun t => ?_, funext fun t => ?_⟩
        · have := congrFun hpost t
          simpa only [Job.post, if_neg c, after, if_neg c'] using this
        · have := congrFun hpre t
          simpa only [Job.pre, if_neg c, before, if_neg c'] using this
    rw [hio.1, hio.2] at h1
    refine ⟨hl _ _ _ _ _ _ ?_ ?_ h1, ?_⟩
    · simp [List.map_map, Function.comp_def]
    · simp [List.map_map, Function.comp_def]
    · unfold Relabelled at h2 ⊢
      rw [hk] at h2 ⊢
      exact h2

theorem blind_extra (hk : k.Blind) (hsurv : ∀ m ∈ g.nodes, far m = false → m ∈ surv (lane m)) :
    Extra lane far surv k p g (Directly k p g) (fun _ _ _ => True) where
  ping _ := trivial
  addPing _ := trivial
  drop _ _ := trivial
  first hg _ _ hm _ hs' := ⟨blind_directly hk hg hm hs', trivial⟩
  next hg _ _ hm _ _ _ _ hs' := ⟨blind_directly hk hg hm hs', trivial⟩

/-! ## The beginning -/

theorem start_whole {g : Gr N V L} {b : Bounds n N L} {Val : N → V → List (L × N) → Prop} {X : (N → Mark) → List N → Multiset (Packet n N) → Prop}
    (hn : 0 < n) (hout : b.out = g.out)
    (hx : X (fun m => if b.far m then .unreachable else .clear) [] {.ping ⟨0, hn⟩}) :
    Whole lane b.far surv k p g Val X (start g b) {.ping ⟨0, hn⟩} := by
  have hpre : ∀ m, (start g b).pre p m = before p g m := by
    intro m
    unfold Job.pre before
    by_cases c : p.forward = true
    · rw [if_pos c, if_pos ((forward_iff p).1 c)]; rfl
    · rw [if_neg c, if_neg fun h => c ((forward_iff p).2 h)]; simp only [start, hout]
  have hpost : ∀ m, (start g b).post p m = after p g m := by
    intro m
    unfold Job.post after
    by_cases c : p.forward = true
    · rw [if_pos c, if_pos ((forward_iff p).1 c)]; simp only [start, hout]
    · rw [if_neg c, if_neg fun h => c ((forward_iff p).2 h)]; rfl
  have hnm : ∀ m, (start g b).mark m ≠ .mutated := by
    intro m; simp only [start]; split <;> simp
  refine ⟨⟨⟨fun m => by rw [hpre], fun m => by rw [hpost], fun i h => absurd rfl h⟩, fun m hm => by simp at hm, fun i _ => ⟨⟨0, hn⟩, Nat.zero_le _, by simp⟩⟩,
    fun _ => ⟨⟨rfl, fun _ => rfl, fun m => ?_, fun m => ?_, fun m => ?_, List.nodup_nil, fun m h => absurd h (hnm m), fun m h => absurd h (hnm m),
      fun m _ => ⟨rfl, hpost m⟩, fun m h => absurd h (hnm m), fun m => ?_⟩, hx, fun i h => (by cases h)⟩⟩
  · simp only [start]; split <;> simp
  · simp only [start]; split <;> simp_all
  · constructor
    · intro h; cases h
    · intro h; exact absurd h (hnm m)
  · rw [hpre]
    unfold arriving
    split
    · rfl
    · rw [patch_none]
      intro e _
      exact if_neg (hnm e.2)

/-! ## Termination -/

theorem acc_of_weight {P G E : Type} {T : Task n P G E} {i₀ : P} {g₀ : G} (μ : G → Nat) (w : P → Nat)
    (hμ : ∀ g p rest, Bag.Reach T i₀ g₀ (g, p ::ₘ rest) → μ (T.handle (T.dest p) g p).1 < μ g ∨
      μ (T.handle (T.dest p) g p).1 ≤ μ g ∧ ((Bag.produced T g p).map w).sum < w p) :
    ∀ x, Bag.Reach T i₀ g₀ x → Acc (fun y x => Bag.Handles T x y) x := by
  have : ∀ a b, ∀ x, Bag.Reach T i₀ g₀ x → μ x.1 ≤ a → (x.2.map w).sum < b →
      Acc (fun y x => Bag.Handles T x y) x := by
    intro a
    induction a using Nat.strong_induction_on with
    | _ a iha =>
      intro b
      induction b with
      | zero => intro x _ _ h; omega
      | succ b ihb =>
        rintro ⟨g, m⟩ hx ha hm
        refine Acc.intro _ ?_
        rintro y ⟨p, rest, h1, h2⟩
        simp only at h1 h2 ha hm
        subst h1 h2
        have hy := Bag.Reach.step hx (Bag.Step.handle g p rest)
        rcases hμ g p rest hx with h | ⟨h, h0⟩
        · exact iha _ (lt_of_lt_of_le h ha) _ _ hy le_rfl (Nat.lt_succ_self _)
        · refine ihb _ hy (h.trans ha) ?_
          simp only [Multiset.map_add, Multiset.sum_add]
          rw [Multiset.map_cons, Multiset.sum_cons] at hm
          omega
  exact fun x hx => this _ _ x hx le_rfl (Nat.lt_succ_self _)

def weigh (g : Gr N V L) (s : Job n N V L) : Nat :=
  (g.nodes.filter fun m => s.mark m = .clear).length + ((List.finRange n).filter fun i => s.started i = false).length

def weight : Packet n N → Nat
  | .ping i => n - i.1
  | .node _ => 1

theorem filter_le {A : Type} {l : List A} {P Q : A → Bool} (h : ∀ a ∈ l, P a = true → Q a = true) : (l.filter P).length ≤ (l.filter Q).length := by
  induction l with
  | nil => simp
  | cons a l ih =>
    have := ih fun b hb => h b (by simp [hb])
    simp only [List.filter_cons]
    by_cases c : P a = true
    · rw [if_pos c, if_pos (h a (by simp) c)]; simpa using this
    · rw [if_neg c]
      split
      · simp only [List.length_cons]; omega
      · exact this

theorem filter_lt {A : Type} {l : List A} {P Q : A → Bool} (h : ∀ a ∈ l, P a = true → Q a = true) {a : A} (ha : a ∈ l) (hQ : Q a = true) (hP : P a = false) :
    (l.filter P).length < (l.filter Q).length := by
  induction l with
  | nil => simp at ha
  | cons b l ih =>
    have hl := filter_le fun c hc => h c (List.mem_cons_of_mem _ hc)
    simp only [List.filter_cons]
    rcases List.mem_cons.1 ha with rfl | ha
    · rw [if_neg (by rw [hP]; simp), if_pos hQ]
      simp only [List.length_cons]; omega
    · have := ih (fun c hc => h c (by simp [hc])) ha
      by_cases c : P b = true
      · rw [if_pos c, if_pos (h b (by simp) c)]; simpa using this
      · rw [if_neg c]
        split
        · simp only [List.length_cons]; omega
        · exact this

variable {hash : N → Nat} {hn : 0 < n}

theorem base_reach (hc : Closed p g surv) {s₀ : Job n N V L} (h0 : Base k p g s₀ {.ping ⟨0, hn⟩}) :
    ∀ x, Bag.Reach (task k p surv hash hn) (.ping ⟨0, hn⟩) s₀ x → Base k p g x.1 x.2 := by
  intro x hx
  induction hx with
  | init => exact h0
  | step _ hs ih =>
    cases hs with
    | handle g p rest => exact ih.handle hc
    | env e g m => exact e.elim

theorem task_acc (hc : Closed p g surv) {s₀ : Job n N V L} (h0 : Base k p g s₀ {.ping ⟨0, hn⟩}) :
    ∀ x, Bag.Reach (task k p surv hash hn) (.ping ⟨0, hn⟩) s₀ x → Acc (fun y x => Bag.Handles (task k p surv hash hn) x y) x := by
  refine acc_of_weight (weigh g) weight ?_
  intro s q rest hx
  have hb := base_reach hc h0 _ hx
  have hpm : ∀ i : Fin n, (s.poll i).mark = s.mark ∧ (s.poll i).started = s.started := by
    intro i
    obtain ⟨a, b, e, -⟩ := poll_eq s i
    rw [e]; exact ⟨rfl, rfl⟩
  -- beginning decreases the weight
  have hstart : ∀ i : Fin n, s.started i = false → ∀ s' : Job n N V L, s'.started = Function.update s.started i true → Kept s s' →
      weigh g s' < weigh g s := by
    intro i hi s' he hk
    unfold weigh
    refine Nat.add_lt_add_of_le_of_lt (filter_le fun m _ h => ?_) (filter_lt (a := i) (fun j _ h => ?_) (List.mem_finRange i) (by simp [hi]) (by simp [he]))
    · simp only [decide_eq_true_eq] at h ⊢
      by_contra hne
      exact hk m hne h
    · simp only [decide_eq_true_eq] at h ⊢
      rw [he] at h
      by_cases c : j = i
      · subst c; exact hi
      · rw [Function.update_of_ne c] at h; exact h
  have hkp : ∀ (i : Fin n) (s' : Job n N V L), Kept (s.poll i) s' → Kept s s' := by
    intro i s' h m hm
    exact h m (by rw [(hpm i).1]; exact hm)
  cases q with
  | ping i =>
    obtain ⟨h1, h2, h3, -⟩ := begin_shape (surv := surv) (i := i) (hb.shape.poll i)
    by_cases c : s.started i = true
    · right
      have hbe : (s.poll i).begin k p surv i = (s.poll i, []) := by
        unfold Job.begin
        rw [if_pos (by rw [(hpm i).2]; exact c)]
      have hh : (task k p surv hash hn).handle ((task k p surv hash hn).dest (.ping i)) s (.ping i) =
          (s.poll i, (if h : i.1 + 1 < n then [.ping ⟨i.1 + 1, h⟩] else []) ++ [], false) := by
        simp only [task, Mutate.handle, hbe]
      have hpr : Bag.produced (task k p surv hash hn) s (.ping i) =
          ((if h : i.1 + 1 < n then [Packet.ping ⟨i.1 + 1, h⟩] else [] : List (Packet n N)) : Multiset (Packet n N)) := by
        simp [Bag.produced, hh]
      rw [hpr, hh]
      refine ⟨?_, ?_⟩
      · unfold weigh; rw [(hpm i).1, (hpm i).2]
      · have hi := i.2
        split_ifs with c'
        · simp only [Multiset.coe_singleton, Multiset.map_singleton, Multiset.sum_singleton, weight]; omega
        · simp only [Multiset.coe_nil, Multiset.map_zero, Multiset.sum_zero, weight]; omega
    · left
      refine hstart i (by simpa using c) _ ?_ (hkp i _ h3)
      have := h2
      rw [(hpm i).2] at this
      exact this
  | node m =>
    have hmn := hb.flight m (Multiset.mem_cons_self _ _)
    generalize hi : Build.lane hn (hash m) = i
    obtain ⟨h1, h2, h3, -⟩ := begin_shape (surv := surv) (i := i) (hb.shape.poll i)
    obtain ⟨-, h6, h7, -, h9⟩ := attempt_shape (i := i) (m := m) h1
    have hdest : (task k p surv hash hn).dest (.node m) = i := hi
    rw [(hpm i).2] at h2
    by_cases c : s.started i = true
    · have hbe : (s.poll i).begin k p surv i = (s.poll i, []) := by
        unfold Job.begin
        rw [if_pos (by rw [(hpm i).2]; exact c)]
      by_cases cm : s.mark m ≠ .clear
      · right
        have hh : (task k p surv hash hn).handle ((task k p surv hash hn).dest (.node m)) s (.node m) = (s.poll i, [], false) := by
          rw [hdest]
          simp only [task, Mutate.handle, hbe]
          rw [if_pos (by rw [(hpm i).1]; exact cm)]
        have hpr : Bag.produced (task k p surv hash hn) s (.node m) = 0 := by
          simp [Bag.produced, hh]
        rw [hpr, hh]
        refine ⟨?_, by simp [weight]⟩
        unfold weigh; rw [(hpm i).1, (hpm i).2]
      · have hh : (task k p surv hash hn).handle ((task k p surv hash hn).dest (.node m)) s (.node m) =
            (interrupt i (attempt k p i (s.poll i) m).1, [] ++ (attempt k p i (s.poll i) m).2, false) := by
          rw [hdest]
          simp only [task, Mutate.handle, hbe]
          rw [if_neg (by rw [(hpm i).1]; exact cm)]
        rw [hbe] at h9 h7 h6
        obtain ⟨c', e', -⟩ := interrupt_eq i (attempt k p i (s.poll i) m).1
        rcases h9 with ⟨e1, e2⟩ | h9
        · right
          have hpr : Bag.produced (task k p surv hash hn) s (.node m) = 0 := by
            simp [Bag.produced, hh, e2]
          rw [hpr, hh]
          refine ⟨?_, by simp [weight]⟩
          dsimp only
          rw [e', e1]
          unfold weigh; dsimp only; rw [(hpm i).1, (hpm i).2]
        · left
          rw [hh]
          dsimp only
          rw [e']
          unfold weigh
          dsimp only
          refine Nat.add_lt_add_of_lt_of_le (filter_lt (a := m) (fun t _ h => ?_) hmn (by simpa using cm) (by simpa using h9)) (le_of_eq ?_)
          · simp only [decide_eq_true_eq] at h ⊢
            by_contra hne
            exact h7 t (by dsimp only; rw [(hpm i).1]; exact hne) h
          · rw [h6]; dsimp only; rw [(hpm i).2]
    · left
      by_cases cm : ((s.poll i).begin k p surv i).1.mark m ≠ .clear
      · have hh : (task k p surv hash hn).handle ((task k p surv hash hn).dest (.node m)) s (.node m) =
            (((s.poll i).begin k p surv i).1, ((s.poll i).begin k p surv i).2, false) := by
          rw [hdest]
          simp only [task, Mutate.handle]
          rw [if_pos cm]
        rw [hh]
        exact hstart i (by simpa using c) _ h2 (hkp i _ h3)
      · have hh : (task k p surv hash hn).handle ((task k p surv hash hn).dest (.node m)) s (.node m) =
            (interrupt i (attempt k p i ((s.poll i).begin k p surv i).1 m).1,
              ((s.poll i).begin k p surv i).2 ++ (attempt k p i ((s.poll i).begin k p surv i).1 m).2, false) := by
          rw [hdest]
          simp only [task, Mutate.handle]
          rw [if_neg cm]
        rw [hh]
        obtain ⟨c', e', -⟩ := interrupt_eq i (attempt k p i ((s.poll i).begin k p surv i).1 m).1
        dsimp only
        rw [e']
        exact hstart i (by simpa using c) _ (by dsimp only; rw [h6, h2]) fun t ht => h7 t (hkp i _ h3 t ht)

end Cru.Mutate
