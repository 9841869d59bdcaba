import Verif.Proofs.MutateRun

/-! # Mutating nodes without errors -/

namespace Cru.Mutate

open Net

variable {n : Nat} {N V L : Type} [DecidableEq N]

/-- What's true as long as there are no errors, if `Val` says what vertices and labels become. -/
structure Good (lane : N → Fin n) (far : N → Bool) (k : Kernel V L) (p : Plan) (g : Gr N V L) (Val : N → V → List (L × N) → Prop)
    (s : Job n N V L) : Prop where
  killed : s.killed = 0
  stop : ∀ i, s.stop i = false
  mark : ∀ m, s.mark m ≠ .blocked
  far : ∀ m, s.mark m = .unreachable ↔ far m = true
  log : ∀ m, m ∈ s.log ↔ s.mark m = .mutated
  nodup : s.log.Nodup
  home : ∀ m, s.mark m = .mutated → s.started (lane m) = true
  nodes : ∀ m, s.mark m = .mutated → m ∈ g.nodes
  kept : ∀ m, s.mark m ≠ .mutated → s.vertex m = g.vertex m ∧ s.post p m = after p g m
  val : ∀ m, s.mark m = .mutated → Val m (s.vertex m) (s.post p m)
  pre : ∀ m, s.pre p m = arriving k p g (fun t => s.mark t = .mutated) (s.post p) m

variable {lane : N → Fin n} {far : N → Bool} {k : Kernel V L} {p : Plan} {g : Gr N V L} {Val : N → V → List (L × N) → Prop}

theorem Good.fire {s s' : Job n N V L} {m : N} {v : V} {es : List (L × N)} (h : Good lane far k p g Val s) (hm : s.mark m = .clear)
    (hmn : m ∈ g.nodes) (hst : s.started (lane m) = true) (hf : Fired k p s m v es s') (hv : Val m v es) :
    Good lane far k p g Val s' := by
  have hne : s.mark m ≠ .mutated := by rw [hm]; simp
  refine ⟨hf.killed.trans h.killed, fun i => by rw [hf.stop]; exact h.stop i, fun t => ?_, fun t => ?_, fun t => ?_, ?_, fun t => ?_, fun t => ?_,
    fun t => ?_, fun t => ?_, fun t => ?_⟩
  · rw [hf.mark]
    by_cases c : t = m
    · subst c; rw [Function.update_self]; simp
    · rw [Function.update_of_ne c]; exact h.mark t
  · rw [hf.mark]
    by_cases c : t = m
    · subst c
      rw [Function.update_self, ← h.far t, hm]; simp
    · rw [Function.update_of_ne c]; exact h.far t
  · rw [hf.mark, hf.log, List.mem_cons]
    by_cases c : t = m
    · subst c; rw [Function.update_self]; simp
    · rw [Function.update_of_ne c, h.log]; simp [c]
  · rw [hf.log, List.nodup_cons, h.log]
    exact ⟨hne, h.nodup⟩
  · rw [hf.mark, hf.started]
    by_cases c : t = m
    · subst c; exact fun _ => hst
    · rw [Function.update_of_ne c]; exact h.home t
  · rw [hf.mark]
    by_cases c : t = m
    · subst c; exact fun _ => hmn
    · rw [Function.update_of_ne c]; exact h.nodes t
  · rw [hf.mark, hf.vertex, hf.post]
    by_cases c : t = m
    · subst c; rw [Function.update_self]; simp
    · rw [Function.update_of_ne c, Function.update_of_ne c, Function.update_of_ne c]; exact h.kept t
  · rw [hf.mark, hf.vertex, hf.post]
    by_cases c : t = m
    · subst c; rw [Function.update_self, Function.update_self, Function.update_self]; exact fun _ => hv
    · rw [Function.update_of_ne c, Function.update_of_ne c, Function.update_of_ne c]; exact h.val t
  · rw [hf.pre]
    have hp := h.pre t
    unfold arriving at hp ⊢
    rcases he : k.eop with _ | f
    · rw [he] at hp
      exact hp
    · rw [he] at hp
      simp only [Option.isSome_some, if_true]
      dsimp only at hp ⊢
      rw [hp, relabel_patch m _ _ _ (if_neg hne)]
      congr 1
      funext x
      by_cases c : x = m
      · subst c
        rw [Function.update_self, if_pos (by rw [hf.mark, Function.update_self]), hf.post, Function.update_self]
        rfl
      · rw [Function.update_of_ne c]
        have e1 : s'.mark x = s.mark x := by rw [hf.mark, Function.update_of_ne c]
        have e2 : s'.post p x = s.post p x := by rw [hf.post, Function.update_of_ne c]
        by_cases c2 : s.mark x = .mutated
        · rw [if_pos c2, if_pos (e1.trans c2), e2]
        · rw [if_neg c2, if_neg (fun h => c2 (e1.symm.trans h))]

/-- What a further invariant `X` about marks, the log, and packets in transit has to comply with, for it to be one. -/
structure Extra (lane : N → Fin n) (far : N → Bool) (surv : Fin n → List N) (k : Kernel V L) (p : Plan) (g : Gr N V L)
    (Val : N → V → List (L × N) → Prop) (X : (N → Mark) → List N → Multiset (Packet n N) → Prop) : Prop where
  ping : ∀ {mark log i bag}, X mark log (.ping i ::ₘ bag) → X mark log bag
  addPing : ∀ {mark log i bag}, X mark log bag → X mark log (.ping i ::ₘ bag)
  drop : ∀ {mark log m bag}, X mark log (.node m ::ₘ bag) → (mark m ≠ .clear ∨ p.unordered = false ∧ ∃ t ∈ prior p g m, mark t = .clear) → X mark log bag
  first : ∀ {s : Job n N V L} {m bag s'}, Good lane far k p g Val s → Shape k p g s → X s.mark s.log bag → s.mark m = .clear → m ∈ surv (lane m) →
    mutate k p s m = .ok s' → (∃ v es, Fired k p s m v es s' ∧ Val m v es) ∧ X s'.mark s'.log (deps n p g m + bag)
  next : ∀ {s : Job n N V L} {m bag s'}, Good lane far k p g Val s → Shape k p g s → X s.mark s.log bag → s.mark m = .clear →
    m ∉ surv (lane m) → .node m ∈ bag → m ∈ g.nodes → (p.unordered = false → ∀ t ∈ prior p g m, s.mark t ≠ .clear) →
    mutate k p s m = .ok s' → (∃ v es, Fired k p s m v es s' ∧ Val m v es) ∧ X s'.mark s'.log (deps n p g m + bag)

variable {surv : Fin n → List N} {X : (N → Mark) → List N → Multiset (Packet n N) → Prop}

/-- No errors. -/
abbrev Fine (s : Job n N V L) : Prop := ∀ i, s.err i = 0

theorem begin1_err {i : Fin n} : ∀ {ms : List N} {s : Job n N V L}, Fine (begin1 k p i s ms).1 → Fine s ∨ s.err i ≠ 0 := by
  intro ms
  induction ms with
  | nil => intro s h; exact .inl h
  | cons m ms ih =>
    intro s h
    simp only [begin1] at h
    split at h
    · rename_i x hx
      exact absurd (h i) (by simp only [Mutate.fail]; rw [Function.update_self]; exact x.2)
    · rename_i s' hs
      obtain ⟨v, es, -, -, h3⟩ := mutate_ok hs
      rcases ih h with h1 | h1
      · left; intro j; rw [← h3.err]; exact h1 j
      · right; rw [← h3.err]; exact h1

theorem begin1_fine {i : Fin n} : ∀ {ms : List N} {s : Job n N V L}, Fine (begin1 k p i s ms).1 → Fine s := by
  intro ms
  induction ms with
  | nil => intro s h; exact h
  | cons m ms ih =>
    intro s h
    simp only [begin1] at h
    split at h
    · rename_i x hx
      exact absurd (h i) (by simp only [Mutate.fail]; rw [Function.update_self]; exact x.2)
    · rename_i s' hs
      obtain ⟨v, es, -, -, h3⟩ := mutate_ok hs
      intro j; rw [← h3.err]; exact ih h j

theorem begin1_good (hX : Extra lane far surv k p g Val X) (hc : Closed p g surv) {i : Fin n} : ∀ {ms : List N} {s : Job n N V L} {bag},
    Good lane far k p g Val s → Shape k p g s → X s.mark s.log bag → s.started i = true →
    ms.Nodup → (∀ m ∈ ms, s.mark m = .clear ∧ m ∈ surv i ∧ lane m = i) → Fine (begin1 k p i s ms).1 →
    Good lane far k p g Val (begin1 k p i s ms).1 ∧ X (begin1 k p i s ms).1.mark (begin1 k p i s ms).1.log ((begin1 k p i s ms).2 + bag) ∧
    ∀ m, m ∈ ms ∨ s.mark m = .mutated → (begin1 k p i s ms).1.mark m = .mutated := by
  intro ms
  induction ms with
  | nil =>
    intro s bag h hs hx _ _ _ _
    refine ⟨h, by simpa [begin1] using hx, fun m hm => ?_⟩
    rcases hm with hm | hm
    · simp at hm
    · exact hm
  | cons m ms ih =>
    intro s bag h hs hx hst hnd hms hfine
    simp only [begin1] at hfine ⊢
    obtain ⟨hm1, hm2, hm3⟩ := hms m (by simp)
    split at hfine
    · rename_i x hx
      exact absurd (hfine i) (by simp only [Mutate.fail]; rw [Function.update_self]; exact x.2)
    · rename_i s' hs'
      obtain ⟨⟨v, es, hf, hv⟩, hx'⟩ := hX.first h hs hx hm1 (by rw [hm3]; exact hm2) hs'
      have hg := h.fire hm1 (hc.surv i m hm2) (by rw [hm3]; exact hst) hf hv
      obtain ⟨hnd1, hnd2⟩ := List.nodup_cons.1 hnd
      obtain ⟨h1, h2, h3⟩ := ih hg (hs.fire hs') hx' (by rw [hf.started]; exact hst) hnd2 (fun t ht => by
        obtain ⟨a, b, c⟩ := hms t (by simp [ht])
        refine ⟨?_, b, c⟩
        have hne : t ≠ m := by rintro rfl; exact hnd1 ht
        rw [hf.mark, Function.update_of_ne hne]; exact a) hfine
      simp only [hs']
      refine ⟨h1, ?_, fun t ht => h3 t ?_⟩
      · rw [dependants_eq, (hs.fire hs').deps, ← Multiset.coe_add, add_assoc, add_left_comm]
        exact h2
      · rcases ht with ht | ht
        · rcases List.mem_cons.1 ht with rfl | ht
          · right; rw [hf.mark, Function.update_self]
          · exact .inl ht
        · right
          rw [hf.mark]
          by_cases c : t = m
          · subst c; rw [Function.update_self]
          · rw [Function.update_of_ne c]; exact ht

/-- Where mutation begins: each lane has some of its own nodes, none twice, and none left out. -/
structure Starts (lane : N → Fin n) (far : N → Bool) (surv : Fin n → List N) : Prop where
  nodup : ∀ i, (surv i).Nodup
  home : ∀ i, ∀ m ∈ surv i, lane m = i
  near : ∀ i, ∀ m ∈ surv i, far m = false

theorem begin_good (hX : Extra lane far surv k p g Val X) (hc : Closed p g surv) (hS : Starts lane far surv) {i : Fin n} {s : Job n N V L} {bag}
    (h : Good lane far k p g Val s) (hs : Shape k p g s) (hx : X s.mark s.log bag)
    (hsurv : ∀ i, s.started i = true → ∀ m ∈ surv i, s.mark m = .mutated) (hfine : Fine (s.begin k p surv i).1) :
    Good lane far k p g Val (s.begin k p surv i).1 ∧ X (s.begin k p surv i).1.mark (s.begin k p surv i).1.log ((s.begin k p surv i).2 + bag) ∧
    (∀ j, (s.begin k p surv i).1.started j = true → ∀ m ∈ surv j, (s.begin k p surv i).1.mark m = .mutated) ∧
    (s.begin k p surv i).1.started i = true ∧ Fine s := by
  have hstd := (begin_shape (surv := surv) (i := i) hs).2.1
  unfold Job.begin at hfine hstd ⊢
  by_cases c : s.started i = true
  · rw [if_pos c] at hfine ⊢
    exact ⟨h, by simpa using hx, hsurv, c, hfine⟩
  · rw [if_neg c] at hfine hstd ⊢
    have h0 : Good lane far k p g Val { s with started := Function.update s.started i true } :=
      ⟨h.killed, h.stop, h.mark, h.far, h.log, h.nodup, fun m hm => by
        dsimp only
        by_cases e : lane m = i
        · rw [e, Function.update_self]
        · rw [Function.update_of_ne e]; exact h.home m hm, h.nodes, h.kept, h.val, h.pre⟩
    obtain ⟨h1, h2, h3⟩ := begin1_good hX hc (i := i) (ms := surv i) h0 ⟨hs.pre, hs.post, hs.err⟩ hx (Function.update_self ..) (hS.nodup i)
      (fun m hm => by
        refine ⟨?_, hm, hS.home i m hm⟩
        have hl := hS.home i m hm
        show s.mark m = .clear
        rcases e : s.mark m with _ | _ | _ | _
        · rfl
        · exact absurd (hl ▸ h.home m e) c
        · have := (h.far m).1 e
          rw [hS.near i m hm] at this; cases this
        · exact absurd e (h.mark m)) hfine
    refine ⟨h1, h2, fun j hj m hm => h3 m ?_, ?_, ?_⟩
    · by_cases e : j = i
      · subst e; exact .inl hm
      · right
        rw [hstd, Function.update_of_ne e] at hj
        exact hsurv j hj m hm
    · rw [hstd, Function.update_self]
    · exact begin1_fine (s := { s with started := Function.update s.started i true }) hfine

/-- The whole invariant. -/
structure Whole (lane : N → Fin n) (far : N → Bool) (surv : Fin n → List N) (k : Kernel V L) (p : Plan) (g : Gr N V L)
    (Val : N → V → List (L × N) → Prop) (X : (N → Mark) → List N → Multiset (Packet n N) → Prop) (s : Job n N V L)
    (bag : Multiset (Packet n N)) : Prop where
  base : Base k p g s bag
  good : Fine s → Good lane far k p g Val s ∧ X s.mark s.log bag ∧ ∀ i, s.started i = true → ∀ m ∈ surv i, s.mark m = .mutated

omit [DecidableEq N] in
theorem quiescent_iff {s : Job n N V L} (hs : Shape k p g s) (m : N) :
    quiescent s (p.prerequisites (s.out m) (s.inn m)) = true ↔ (p.unordered = false → ∀ t ∈ prior p g m, s.mark t ≠ .clear) := by
  rw [prerequisites_eq, ← hs.pre]
  unfold quiescent
  cases p.unordered
  · simp only [Bool.false_eq_true, if_false, List.all_eq_true, decide_eq_true_eq, List.mem_map, forall_exists_index, and_imp, true_imp_iff]
    exact ⟨fun h t e he het => het ▸ h e he, fun h e he => h e.2 e he rfl⟩
  · simp

omit [DecidableEq N] in
theorem not_blocked {s : Job n N V L} (h : ∀ m, s.mark m ≠ .blocked) (es : List (L × N)) : ¬ blocked s es = true := by
  unfold blocked
  simp [h]

variable {hash : N → Nat} {hn : 0 < n}

theorem Whole.handle (hX : Extra (fun m => Build.lane hn (hash m)) far surv k p g Val X) (hc : Closed p g surv) (hS : Starts (fun m => Build.lane hn (hash m)) far surv)
    {s : Job n N V L} {q : Packet n N} {rest : Multiset (Packet n N)}
    (h : Whole (fun m => Build.lane hn (hash m)) far surv k p g Val X s (q ::ₘ rest)) :
    Whole (fun m => Build.lane hn (hash m)) far surv k p g Val X ((task k p surv hash hn).handle ((task k p surv hash hn).dest q) s q).1
      (Bag.produced (task k p surv hash hn) s q + rest) := by
  refine ⟨h.base.handle hc, fun hfine => ?_⟩
  have hpoll : ∀ i : Fin n, Fine s → Good (fun m => Build.lane hn (hash m)) far k p g Val (s.poll i) ∧ X (s.poll i).mark (s.poll i).log (q ::ₘ rest) ∧
      ∀ j, (s.poll i).started j = true → ∀ m ∈ surv j, (s.poll i).mark m = .mutated := by
    intro i hf
    obtain ⟨hg, hx, hsv⟩ := h.good hf
    obtain ⟨a, b, e, hb⟩ := poll_eq s i
    rw [e]
    exact ⟨⟨hg.killed, hb hg.killed hg.stop, hg.mark, hg.far, hg.log, hg.nodup, hg.home, hg.nodes, hg.kept, hg.val, hg.pre⟩, hx, hsv⟩
  have hpf : ∀ i : Fin n, Fine (s.poll i) → Fine s := by
    intro i hf
    obtain ⟨a, b, e, -⟩ := poll_eq s i
    rw [e] at hf; exact hf
  have hbf : ∀ i : Fin n, Fine ((s.poll i).begin k p surv i).1 → Fine s := by
    intro i hf
    refine hpf i ?_
    unfold Job.begin at hf
    split_ifs at hf with c
    · exact hf
    · exact begin1_fine (s := { s.poll i with started := Function.update (s.poll i).started i true }) hf
  cases q with
  | ping i =>
    have hfs := hbf i hfine
    obtain ⟨h1, h2, h3⟩ := hpoll i hfs
    obtain ⟨h4, h5, h6, -, -⟩ := begin_good hX hc hS h1 (h.base.shape.poll i) h2 h3 hfine
    refine ⟨h4, ?_, h6⟩
    have hpr : Bag.produced (task k p surv hash hn) s (.ping i) = (((if h : i.1 + 1 < n then [Packet.ping ⟨i.1 + 1, h⟩] else []) ++
        ((s.poll i).begin k p surv i).2 : List (Packet n N)) : Multiset (Packet n N)) := by
      simp [Bag.produced, task, Mutate.handle]
    rw [hpr]
    have h5' : X ((s.poll i).begin k p surv i).1.mark ((s.poll i).begin k p surv i).1.log (((s.poll i).begin k p surv i).2 + rest) := by
      rw [Multiset.add_cons] at h5
      exact hX.ping h5
    show X ((s.poll i).begin k p surv i).1.mark ((s.poll i).begin k p surv i).1.log _
    split_ifs with c
    · rw [← Multiset.coe_add, add_assoc]
      exact hX.addPing h5'
    · exact h5'
  | node m =>
    have hmn := h.base.flight m (Multiset.mem_cons_self _ _)
    by_cases c : ((s.poll (Build.lane hn (hash m))).begin k p surv (Build.lane hn (hash m))).1.mark m ≠ .clear
    · have hh : (task k p surv hash hn).handle ((task k p surv hash hn).dest (.node m)) s (.node m) =
          (((s.poll (Build.lane hn (hash m))).begin k p surv (Build.lane hn (hash m))).1,
            ((s.poll (Build.lane hn (hash m))).begin k p surv (Build.lane hn (hash m))).2, false) := by
        simp only [task, Mutate.handle]
        rw [if_pos c]
      have hpr : Bag.produced (task k p surv hash hn) s (.node m) =
          (((s.poll (Build.lane hn (hash m))).begin k p surv (Build.lane hn (hash m))).2 : Multiset (Packet n N)) := by
        simp [Bag.produced, hh]
      rw [hpr]
      rw [hh] at hfine ⊢
      obtain ⟨h1, h2, h3⟩ := hpoll _ (hbf _ hfine)
      obtain ⟨h4, h5, h6, -, -⟩ := begin_good hX hc hS h1 (h.base.shape.poll _) h2 h3 hfine
      refine ⟨h4, ?_, h6⟩
      rw [Multiset.add_cons] at h5
      exact hX.drop h5 (.inl c)
    · have hh : (task k p surv hash hn).handle ((task k p surv hash hn).dest (.node m)) s (.node m) =
          (interrupt (Build.lane hn (hash m)) (attempt k p (Build.lane hn (hash m)) ((s.poll (Build.lane hn (hash m))).begin k p surv (Build.lane hn (hash m))).1 m).1,
            ((s.poll (Build.lane hn (hash m))).begin k p surv (Build.lane hn (hash m))).2 ++
            (attempt k p (Build.lane hn (hash m)) ((s.poll (Build.lane hn (hash m))).begin k p surv (Build.lane hn (hash m))).1 m).2, false) := by
        simp only [task, Mutate.handle]
        rw [if_neg c]
      have hpr : Bag.produced (task k p surv hash hn) s (.node m) =
          ((((s.poll (Build.lane hn (hash m))).begin k p surv (Build.lane hn (hash m))).2 ++
            (attempt k p (Build.lane hn (hash m)) ((s.poll (Build.lane hn (hash m))).begin k p surv (Build.lane hn (hash m))).1 m).2 : List (Packet n N)) :
            Multiset (Packet n N)) := by
        simp [Bag.produced, hh]
      rw [hpr]
      rw [hh] at hfine ⊢
      dsimp only at hfine ⊢
      generalize hi : Build.lane hn (hash m) = i at *
      have hbs := (begin_shape (surv := surv) (i := i) (h.base.shape.poll i)).1
      generalize hr : (s.poll i).begin k p surv i = r at *
      obtain ⟨c', hc', hceq⟩ := interrupt_eq i (attempt k p i r.1 m).1
      rw [hc'] at hfine ⊢
      have hfine' : Fine (attempt k p i r.1 m).1 := hfine
      have hce := hceq (hfine' i)
      -- no error before either
      have hrf : Fine r.1 := by
        intro j
        have hj := hfine' j
        unfold attempt at hj
        split_ifs at hj with c1 c2
        · exact hj
        · split at hj
          · rename_i x hx
            simp only [Mutate.fail] at hj
            by_cases e : j = i
            · subst e; exact c1.1
            · rw [Function.update_of_ne e] at hj; exact hj
          · rename_i s' hs'
            obtain ⟨v, es, -, -, h3⟩ := mutate_ok hs'
            rw [h3.err] at hj; exact hj
        · exact hj
      have hsf : Fine s := hbf i (by rw [hr]; exact hrf)
      obtain ⟨h1, h2, h3⟩ := hpoll i hsf
      obtain ⟨h4, h5, h6, h7, -⟩ := begin_good hX hc hS h1 (h.base.shape.poll i) h2 h3 (by rw [hr]; exact hrf)
      rw [hr] at h4 h5 h6 h7
      have hclear : r.1.mark m = .clear := by
        by_contra hne; exact c hne
      suffices hmain : Good (fun m => Build.lane hn (hash m)) far k p g Val (attempt k p i r.1 m).1 ∧
          X (attempt k p i r.1 m).1.mark (attempt k p i r.1 m).1.log ((r.2 ++ (attempt k p i r.1 m).2 : List (Packet n N)) + rest) ∧
          ∀ j, (attempt k p i r.1 m).1.started j = true → ∀ m' ∈ surv j, (attempt k p i r.1 m).1.mark m' = .mutated by
        obtain ⟨hg, hx, hsv⟩ := hmain
        exact ⟨⟨hce.trans hg.killed, hg.stop, hg.mark, hg.far, hg.log, hg.nodup, hg.home, hg.nodes, hg.kept, hg.val, hg.pre⟩, hx, hsv⟩
      by_cases cq : quiescent r.1 (p.prerequisites (r.1.out m) (r.1.inn m)) = true
      · have he : attempt k p i r.1 m = match mutate k p r.1 m with
            | .error x => (fail r.1 i m x, [])
            | .ok s => (s, (p.dependants (s.out m) (s.inn m)).map fun e => .node e.2) := by
          unfold attempt
          rw [if_pos ⟨hrf i, h4.stop i, cq⟩, if_neg (not_blocked h4.mark _)]
          cases mutate k p r.1 m <;> rfl
        rcases hmu : mutate k p r.1 m with x | s'
        · rw [he, hmu] at hfine'
          exact absurd (hfine' i) (by simp only [Mutate.fail]; rw [Function.update_self]; exact x.2)
        · rw [hmu] at he
          rw [he]
          dsimp only
          have hns : m ∉ surv (Build.lane hn (hash m)) := by
            rw [hi]
            intro hm
            have := h6 i h7 m hm
            rw [hclear] at this; cases this
          obtain ⟨⟨v, es, hf, hv⟩, hx'⟩ := hX.next h4 hbs h5 hclear hns
            (Multiset.mem_add.2 (.inr (Multiset.mem_cons_self _ _))) hmn ((quiescent_iff hbs m).1 cq) hmu
          refine ⟨h4.fire hclear hmn (by show r.1.started (Build.lane hn (hash m)) = true; rw [hi]; exact h7) hf hv, ?_, fun j hj m' hm' => ?_⟩
          · rw [dependants_eq, (hbs.fire hmu).deps]
            have e1 : ((deps n p g m : List (Packet n N)) : Multiset (Packet n N)) + ((r.2 : Multiset (Packet n N)) + (.node m ::ₘ rest)) =
                .node m ::ₘ (((r.2 ++ deps n p g m : List (Packet n N)) : Multiset (Packet n N)) + rest) := by
              rw [← Multiset.coe_add, Multiset.add_cons, Multiset.add_cons, ← add_assoc, add_comm (deps n p g m : Multiset (Packet n N))]
            rw [e1] at hx'
            exact hX.drop hx' (.inl (by rw [hf.mark, Function.update_self]; simp))
          · rw [hf.started] at hj
            rw [hf.mark]
            by_cases e : m' = m
            · subst e; rw [Function.update_self]
            · rw [Function.update_of_ne e]; exact h6 j hj m' hm'
      · have he : attempt k p i r.1 m = (r.1, []) := by
          unfold attempt
          rw [if_neg (fun hh => cq hh.2.2)]
        rw [he]
        dsimp only
        refine ⟨h4, ?_, h6⟩
        rw [List.append_nil]
        rw [Multiset.add_cons] at h5
        refine hX.drop h5 (.inr ?_)
        rw [quiescent_iff hbs] at cq
        push Not at cq
        exact cq

theorem Whole.reach (hX : Extra (fun m => Build.lane hn (hash m)) far surv k p g Val X) (hc : Closed p g surv) (hS : Starts (fun m => Build.lane hn (hash m)) far surv)
    {s₀ : Job n N V L} (h0 : Whole (fun m => Build.lane hn (hash m)) far surv k p g Val X s₀ {.ping ⟨0, hn⟩}) :
    ∀ x, Bag.Reach (task k p surv hash hn) (.ping ⟨0, hn⟩) s₀ x → Whole (fun m => Build.lane hn (hash m)) far surv k p g Val X x.1 x.2 := by
  intro x hx
  induction hx with
  | init => exact h0
  | step _ hs ih =>
    cases hs with
    | handle g p rest => exact ih.handle hX hc hS
    | env e g m => exact e.elim

end Cru.Mutate
