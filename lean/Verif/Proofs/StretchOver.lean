import Verif.Proofs.StretchGraft

/-! # Overwriting new nodes keeps the invariants of stretching -/

namespace Cru.Stretch

open Net Dedup

variable {n : Nat} {N V L : Type} [DecidableEq N] [DecidableEq V] [DecidableEq L]
variable {o : Orders V L} {ask : N → L × N → Answer V L} {g : Gr N V L} {addr : Nd N V L → Nat} {hn : 0 < n} {M : Mem n N V L}

theorem carriers_eq (hi : Inv o ask g hn M) (ho : o.Lawful) {c : Nd N V L} {a : Entry N V L} (h : Ent o g hn M c a) :
    carriers M (ln o g hn c) c = a.carriers := by
  unfold carriers
  cases hf : (M.tab (ln o g hn c)).find? fun a => decide (a.node = c) with
  | none =>
    have := List.find?_eq_none.1 hf a h.1
    exact absurd (by simpa using h.2) this
  | some b =>
    have h1 := List.mem_of_find?_eq_some hf
    have h2 := List.find?_some hf
    have : b = a := hi.ent ho ⟨h1, by simpa using h2⟩ h
    rw [this]; rfl

theorem ent_over {m c d : Nd N V L} {es : List (Edge N V L)} {x : Option (Edge N V L)} {a : Entry N V L} (hc : ln o g hn c = ln o g hn m)
    (hst : ¬ St o g hn M m) :
    Ent o g hn (overwrite o addr (ln o g hn m) M m c es x) d a ↔
      (d ≠ c ∧ Ent o g hn M d a) ∨ (d = m ∧ ∃ b, Ent o g hn M c b ∧ a = ⟨m, x :: b.carriers⟩) := by
  unfold Ent overwrite
  dsimp only
  by_cases h : ln o g hn d = ln o g hn m
  · rw [h, hc, Function.update_self, List.mem_map]
    constructor
    · rintro ⟨⟨b, hb, rfl⟩, h1⟩
      split_ifs at h1 ⊢ with h2
      · exact .inr ⟨h1.symm, b, ⟨hb, h2⟩, rfl⟩
      · exact .inl ⟨by rintro rfl; exact h2 h1, hb, h1⟩
    · rintro (⟨h1, h2, rfl⟩ | ⟨rfl, b, ⟨hb, rfl⟩, rfl⟩)
      · exact ⟨⟨a, h2, if_neg h1⟩, rfl⟩
      · exact ⟨⟨b, hb, if_pos rfl⟩, rfl⟩
  · rw [Function.update_of_ne h]
    have h1 : d ≠ c := by rintro rfl; exact h hc
    have h2 : d ≠ m := by rintro rfl; exact h rfl
    constructor
    · exact fun h => .inl ⟨h1, h⟩
    · rintro (h | h)
      · exact h.2
      · exact absurd h.1 h2

theorem inv_overwrite (ho : o.Lawful) (ha : Function.Injective addr) (hi : Inv o ask g hn M) {m : N} {c : Nd N V L} (hm : M.mark m = false)
    (hr : Reaches (g.next false) g.base m) (hcn : c.isNew = true) (hc : St o g hn M c) (hmc : Eqv o g (.old m) c) (x : Option (Edge N V L)) :
    Inv o ask g hn (overwrite o addr (ln o g hn (.old m)) (scatter ask g M m) (.old m) c
      ((carriers (scatter ask g M m) (ln o g hn (.old m)) c).filterMap id) x) := by
  have hln : ln o g hn c = ln o g hn (.old m) := Eqv.ln ho (Eqv.symm ho hmc)
  have hnst : ¬ St o g hn M (.old m) := fun h => by rw [← hi.mark, hm] at h; cases h
  have hnd : ¬ Done o g hn M (.old m) := by
    rintro (h | h)
    · exact hnst h
    · have := (hi.dead _ h).1; simp [Nd.isNew] at this
  have hcm : c ≠ .old m := by rintro rfl; cases hcn
  obtain ⟨b, hb⟩ := hc
  have hc : St o g hn M c := ⟨b, hb⟩
  generalize hes' : (carriers (scatter ask g M m) (ln o g hn (.old m)) c).filterMap id = es
  have hes : ∀ f, f ∈ es ↔ some f ∈ b.carriers := by
    intro f
    rw [← hes', ← hln, show carriers (scatter ask g M m) (ln o g hn c) c = carriers M (ln o g hn c) c from rfl, carriers_eq hi ho hb]
    simp
  clear hes'
  have hes1 : ∀ f ∈ es, IsAnte f ∧ Done o g hn M f.tgt ∧ M.far f = c := by
    intro f hf
    obtain ⟨f', h1, h2, h3, h4⟩ := hi.carr c b hcn hb _ ((hes f).1 hf)
    cases h1
    exact ⟨h2, h3, h4⟩
  have hes2 : ∀ f, IsAnte f → Done o g hn M f.tgt → M.far f = c → f ∈ es := by
    intro f h1 h2 h3
    exact (hes f).2 ((hi.far f h1 h2).2.2 (by rw [h3]; exact hcn) b (by rw [h3]; exact hb))
  have hnd' : (M.out c ++ gens ask g (.old m)).Nodup := by
    refine List.nodup_append.2 ⟨hi.nodup c hc, gens_nodup _, fun y hy z hz => ?_⟩
    rintro rfl
    have h1 := gens_src hz
    have h2 := (hi.own c hc y hy).2.1
    rw [h1] at h2
    exact hnd h2
  obtain ⟨hd1, hd2, hd3, -, hd5, hd6⟩ := dedup_spec ho ha (fun a => if a ∈ es then .old m else M.far a) _ hnd'
  generalize hM' : overwrite o addr (ln o g hn (.old m)) (scatter ask g M m) (.old m) c es x = M'
  have hE : ∀ {d a}, Ent o g hn M' d a ↔
      (d ≠ c ∧ Ent o g hn M d a) ∨ (d = .old m ∧ ∃ b, Ent o g hn M c b ∧ a = ⟨.old m, x :: b.carriers⟩) := by
    intro d a; rw [← hM']; exact ent_over (M := scatter ask g M m) hln hnst
  have hS : ∀ {d}, St o g hn M' d ↔ (d ≠ c ∧ St o g hn M d) ∨ d = .old m := by
    intro d
    constructor
    · rintro ⟨a, h⟩
      rcases hE.1 h with ⟨h1, h⟩ | ⟨rfl, -⟩
      · exact .inl ⟨h1, a, h⟩
      · exact .inr rfl
    · rintro (⟨h1, a, h⟩ | rfl)
      · exact ⟨a, hE.2 (.inl ⟨h1, h⟩)⟩
      · exact ⟨_, hE.2 (.inr ⟨rfl, b, hb, rfl⟩)⟩
  have hdead : M'.dead = c :: M.dead := by rw [← hM']; rfl
  have hD : ∀ {d}, Done o g hn M' d ↔ Done o g hn M d ∨ d = .old m := by
    intro d; unfold Done; rw [hS, hdead, List.mem_cons]
    by_cases h : d = c
    · subst h; simp [hc]
    · simp only [h, ne_eq, not_false_eq_true, true_and, false_or]; tauto
  have hfar : ∀ f, f ∉ es → M'.far f = M.far f := by
    intro f h; rw [← hM']; exact if_neg h
  have hfare : ∀ f ∈ es, M'.far f = .old m := by
    intro f h; rw [← hM']; exact if_pos h
  have hfar' : (fun a => if a ∈ es then .old m else M.far a) = M'.far := by rw [← hM']; rfl
  have hmk : M'.mark = Function.update M.mark m true := by rw [← hM']; rfl
  have hout : ∀ d, d ≠ .old m → d ≠ c → M'.out d = M.out d := by
    intro d h1 h2
    rw [← hM']
    unfold overwrite scatter
    dsimp only
    rw [Function.update_of_ne h2, Function.update_of_ne h1, Function.update_of_ne h1]
  have hlist : (scatter ask g M m).out c ++ (scatter ask g M m).out (.old m) = M.out c ++ gens ask g (.old m) := by
    unfold scatter
    dsimp only
    rw [Function.update_self, Function.update_of_ne hcm]
    rfl
  have houtm : M'.out (.old m) =
      (deduplicatedEdges (fun a => addr (if a ∈ es then .old m else M.far a)) (lq o) (M.out c ++ gens ask g (.old m))).1 := by
    rw [← hM', ← hlist]; unfold overwrite; dsimp only; rw [Function.update_of_ne (Ne.symm hcm), Function.update_self]; rfl
  have hfreed : M'.freed =
      (deduplicatedEdges (fun a => addr (if a ∈ es then .old m else M.far a)) (lq o) (M.out c ++ gens ask g (.old m))).2 ++
        (deleted ask g m ++ M.freed) := by
    rw [← hM', ← hlist]; rfl
  have hbad : M'.bad = (M.bad || es.any fun a => decide (a ∈ deleted ask g m ++ M.freed)) := by rw [← hM']; rfl
  have hlane : ∀ i, ∀ a ∈ M'.tab i, ln o g hn a.node = i := by
    intro i a h
    rw [← hM'] at h
    unfold overwrite scatter at h
    dsimp only at h
    by_cases hh : i = ln o g hn (.old m)
    · subst hh
      rw [Function.update_self] at h
      obtain ⟨b, hb, rfl⟩ := List.mem_map.1 h
      have := hi.lane _ b hb
      split_ifs
      · rfl
      · exact this
    · rw [Function.update_of_ne hh] at h
      exact hi.lane _ a h
  have hreps : ∀ i, (M'.tab i).Pairwise fun a b => ¬ Eqv o g a.node b.node := by
    intro i
    rw [← hM']
    unfold overwrite scatter
    dsimp only
    by_cases hh : i = ln o g hn (.old m)
    · subst hh
      rw [Function.update_self, List.pairwise_map]
      refine (hi.reps _).imp fun {a b} h h' => h ?_
      have : ∀ a : Entry N V L, Eqv o g a.node (if a.node = c then ⟨.old m, x :: a.carriers⟩ else a).node := by
        intro a
        split_ifs with h
        · rw [h]; exact Eqv.symm ho hmc
        · exact Eqv.refl ho _
      exact Eqv.trans ho (this a) (Eqv.trans ho h' (Eqv.symm ho (this b)))
    · rw [Function.update_of_ne hh]
      exact hi.reps _
  rw [← houtm] at hd1 hd3 hd5 hd6
  have hff : ∀ f, (if f ∈ es then Nd.old m else M.far f) = M'.far f := fun f => congrFun hfar' f
  simp only [hff] at hd2 hd5 hd6 hfreed
  have hfreed' : ∀ f ∈ M'.freed, f ∈ M.freed ∨ f ∈ deleted ask g m ∨
      (f ∈ M.out c ++ gens ask g (.old m) ∧ ∃ f' ∈ M'.out (.old m), f' ≠ f ∧ lq o f' f = true ∧ M'.far f' = M'.far f) := by
    intro f hf
    rw [hfreed] at hf
    rcases List.mem_append.1 hf with hf | hf
    · exact .inr (.inr ⟨hd2 f hf, hd6 f hf⟩)
    · rcases List.mem_append.1 hf with hf | hf
      · exact .inr (.inl hf)
      · exact .inl hf
  clear hM' houtm hfreed hd2 hd6 hfar' hff
  have hmono : ∀ a, M.mark a = true → M'.mark a = true := by
    intro a ha
    rw [hmk]
    by_cases h : a = m
    · subst h; exact Function.update_self _ _ _
    · rw [Function.update_of_ne h]; exact ha
  have hnew : ∀ d : Nd N V L, d.isNew = true → d ≠ .old m := by rintro d h rfl; cases h
  have hSm : St o g hn M' (.old m) := hS.2 (.inr rfl)
  have hdeln : ∀ f ∈ deleted ask g m, ¬ IsAnte f := by
    intro f hf hfa
    obtain ⟨y, -, rfl⟩ := List.mem_map.1 hf
    obtain ⟨_, _, _, _, _, h⟩ := hfa
    simp [oldEdge] at h
  -- edges that lead to equal nodes still do
  have hfq : ∀ f, Eqv o g f.tgt (M'.far f) := by
    intro f
    by_cases h : f ∈ es
    · rw [hfare f h]
      have := hi.farEqv ho f
      rw [(hes1 f h).2.2] at this
      exact Eqv.trans ho this (Eqv.symm ho hmc)
    · rw [hfar f h]; exact hi.farEqv ho f
  have hante : ∀ f ∈ M.out c ++ gens ask g (.old m), IsAnte f → f ∈ gens ask g (.old m) := by
    intro f hf hfa
    rcases List.mem_append.1 hf with h | h
    · have := hi.ante_src ho hc h hfa
      rw [← this, hfa.src_new] at hcn
      cases hcn
    · exact h
  constructor
  · exact hlane
  · exact hreps
  · intro d h
    rcases hD.1 h with h | rfl
    · exact ⟨(hi.real d h).1, hmono _ (hi.real d h).2⟩
    · exact ⟨trivial, by rw [hmk]; exact Function.update_self _ _ _⟩
  · intro a
    rw [hS, hmk]
    by_cases h : a = m
    · subst h; simp
    · rw [Function.update_of_ne h]
      rw [hi.mark a]
      constructor
      · exact fun h' => .inl ⟨(by rintro rfl; cases hcn), h'⟩
      · rintro (h' | h')
        · exact h'.2
        · cases h'; exact absurd rfl h
  · intro a h
    rw [hmk] at h
    by_cases h' : a = m
    · subst h'; exact hr
    · rw [Function.update_of_ne h'] at h; exact hi.reach a h
  · intro d hd
    rw [hdead, List.mem_cons] at hd
    rcases hd with rfl | hd
    · refine ⟨hcn, fun h => ?_, _, hSm, Eqv.symm ho hmc⟩
      rcases hS.1 h with h | h
      · exact h.1 rfl
      · exact hcm h
    · obtain ⟨h1, h2, d', h3, h4⟩ := hi.dead d hd
      refine ⟨h1, fun h => ?_, ?_⟩
      · rcases hS.1 h with h | h
        · exact h2 h.2
        · exact hnew _ h1 h
      · by_cases hdc : d' = c
        · subst hdc; exact ⟨_, hSm, Eqv.trans ho h4 (Eqv.symm ho hmc)⟩
        · exact ⟨d', hS.2 (.inl ⟨hdc, h3⟩), h4⟩
  · intro d h1 h2
    have hdc : d ≠ c := by rintro rfl; exact h2 (hD.2 (.inl (.inl hc)))
    rw [hout d (hnew d h1) hdc]
    exact hi.fresh d h1 fun h => h2 (hD.2 (.inl h))
  · intro f h1 h2
    have hfe : f ∉ es := fun h => h2 (hD.2 (.inl (hes1 f h).2.1))
    rw [hfar f hfe]
    exact hi.wait f h1 fun h => h2 (hD.2 (.inl h))
  · intro f hf
    have hfe : f ∉ es := fun h => hf (hes1 f h).1
    rw [hfar f hfe]
    exact hi.still f hf
  · intro f hf hd
    have hd' := (hD.1 hd).resolve_right (hnew _ hf.isNew)
    by_cases hfe : f ∈ es
    · have h := hfq f
      rw [hfare f hfe] at h ⊢
      exact ⟨hSm, h, fun h => by cases h⟩
    · obtain ⟨h1, h2, h3⟩ := hi.far f hf hd'
      have hfc : M.far f ≠ c := fun h => hfe (hes2 f hf hd' h)
      rw [hfar f hfe]
      refine ⟨hS.2 (.inl ⟨hfc, h1⟩), h2, fun h a ha => ?_⟩
      rcases hE.1 ha with ⟨-, ha⟩ | ⟨h', -⟩
      · exact h3 h a ha
      · exact absurd h' (hnew _ h)
  · intro d a hdn ha' y hy
    rcases hE.1 ha' with ⟨hdc, h⟩ | ⟨h, -⟩
    · obtain ⟨f, h1, h2, h3, h4⟩ := hi.carr d a hdn h y hy
      refine ⟨f, h1, h2, hD.2 (.inl h3), ?_⟩
      rw [hfar f fun hf => hdc (h4.symm.trans (hes1 f hf).2.2)]
      exact h4
    · exact absurd h (hnew _ hdn)
  · intro d hd f hf
    rcases hS.1 hd with ⟨hdc, hd'⟩ | rfl
    · rw [hout d (by rintro rfl; exact hnst hd') hdc] at hf
      obtain ⟨h1, h2, h3⟩ := hi.own d hd' f hf
      exact ⟨h1, hD.2 (.inl h2), h3⟩
    · rcases List.mem_append.1 (hd1 f hf) with h | h
      · obtain ⟨h1, h2, h3⟩ := hi.own c hc f h
        exact ⟨h1, hD.2 (.inl h2), Eqv.trans ho h3 (Eqv.symm ho hmc)⟩
      · have := gens_src h
        rw [this]
        exact ⟨h, hD.2 (.inr rfl), Eqv.refl ho _⟩
  · intro d hd
    rcases hS.1 hd with ⟨hdc, hd'⟩ | rfl
    · rw [hout d (by rintro rfl; exact hnst hd') hdc]; exact hi.nodup d hd'
    · exact hd3
  · intro d s hd hs heq f hf
    rcases hS.1 hd with ⟨hdc, hd'⟩ | rfl
    · rw [hout d (by rintro rfl; exact hnst hd') hdc]
      rcases hD.1 hs with hs | rfl
      · exact hi.cover d s hd' hs heq f hf
      · exact absurd (hi.uniq ho hd' hc (Eqv.trans ho (Eqv.symm ho heq) hmc)) hdc
    · have : ∃ f' ∈ M.out c ++ gens ask g (.old m), lq o f' f = true ∧ Eqv o g f'.tgt f.tgt := by
        rcases hD.1 hs with hs | rfl
        · obtain ⟨f', h1, h2⟩ := hi.cover c s hc hs (Eqv.trans ho heq hmc) f hf
          exact ⟨f', List.mem_append_left _ h1, h2⟩
        · exact ⟨f, List.mem_append_right _ hf, (lq_eq ho).refl _, Eqv.refl ho _⟩
      obtain ⟨f', h1, h2, h3⟩ := this
      obtain ⟨f'', h4, h5, h6⟩ := hd5 f' h1
      refine ⟨f'', h4, (lq_eq ho).trans _ _ _ h5 h2, Eqv.trans ho (hfq f'') ?_⟩
      rw [h6]
      exact Eqv.trans ho (Eqv.symm ho (hfq f')) h3
  · intro a hma hal
    have ham : a ≠ m := by
      rintro rfl
      exact hal c hcn (hD.2 (.inl (.inl hc))) (Eqv.symm ho hmc)
    rw [hmk, Function.update_of_ne ham] at hma
    rw [hout _ (by simpa using ham) (by rintro rfl; cases hcn)]
    exact hi.alone a hma fun d h1 h2 => hal d h1 (hD.2 (.inl h2))
  · intro d hdn hd
    rcases hS.1 hd with ⟨hdc, hd'⟩ | rfl
    · rw [hout d (hnew d hdn) hdc]
      have hno : ∀ f ∈ M.out d, f ∉ es := by
        intro f hf hfe
        have := hi.ante_src ho hd' hf (hes1 f hfe).1
        rw [← this, (hes1 f hfe).1.src_new] at hdn
        cases hdn
      refine (hi.multi d hdn hd').imp_of_mem fun {x y} hx hy h h' => h ?_
      rw [hfar x (hno x hx), hfar y (hno y hy)] at h'
      exact h'
    · cases hdn
  · intro f hf hfa hfn
    have hfe : f ∉ es := fun h => by rw [hfare f h] at hfn; cases hfn
    rcases hfreed' f hf with h | h | ⟨h, f', h1, h2, h3, h4⟩
    · rw [hfar f hfe] at hfn
      exact hi.safe f h hfa hfn
    · exact absurd hfa (hdeln f h)
    · have hg := hante f h hfa
      have hfa' : IsAnte f' := by
        by_contra hno
        have hg' : f' ∈ gens ask g f'.src := by
          rcases List.mem_append.1 (hd1 f' h1) with h | h
          · exact (hi.own c hc f' h).1
          · rw [gens_src h]; exact h
        rcases gens_kind hg' with ⟨h, -⟩ | ⟨-, h⟩
        · exact hno h
        · rw [← h4, hfar f' fun h => hno (hes1 f' h).1, hi.still f' hno, h] at hfn
          cases hfn
      have hg' := hante f' (hd1 f' h1) hfa'
      refine ⟨f', h2, hfa', (gens_src hg').trans (gens_src hg).symm, ?_, (lq_eq ho).symm _ _ h3, ?_⟩
      · rcases gens_kind hg' with ⟨-, h⟩ | ⟨h, -⟩
        · exact h
        · exact absurd hfa' h
      · refine Eqv.trans ho (hfq f) ?_
        rw [← h4]
        exact Eqv.symm ho (hfq f')
  · intro h
    rw [hbad] at h
    cases hbb : M.bad with
    | true => exact hi.bad hbb
    | false =>
      rw [hbb, Bool.false_or, List.any_eq_true] at h
      obtain ⟨f, hf, h⟩ := h
      obtain ⟨h1, h2, h3⟩ := hes1 f hf
      have h4 : f ∈ M.freed := by
        rcases List.mem_append.1 (by simpa using h : f ∈ deleted ask g m ++ M.freed) with h | h
        · exact absurd h1 (hdeln f h)
        · exact h
      have h5 := hi.farEqv ho f
      rw [h3] at h5
      exact ⟨f, m, h1, (hi.real _ h2).1, hi.reach _ (hi.real _ h2).2, hi.safe f h4 h1 (by rw [h3]; exact hcn), hr, Eqv.trans ho h5 (Eqv.symm ho hmc)⟩

end Cru.Stretch
