import Verif.Proofs.StretchStore

/-! # Fusing nodes keeps the invariants of stretching -/

namespace Cru.Stretch

open Net Dedup

variable {n : Nat} {N V L : Type} [DecidableEq N] [DecidableEq V] [DecidableEq L]
variable {o : Orders V L} {ask : N → L × N → Answer V L} {g : Gr N V L} {addr : Nd N V L → Nat} {hn : 0 < n} {M : Mem n N V L}

/-- What deduplication of edges does. -/
theorem dedup_spec (ho : o.Lawful) (ha : Function.Injective addr) (far : Edge N V L → Nd N V L) (es : List (Edge N V L)) (hes : es.Nodup) :
    let d := deduplicatedEdges (fun a => addr (far a)) (lq o) es
    (∀ e ∈ d.1, e ∈ es) ∧ (∀ e ∈ d.2, e ∈ es) ∧ d.1.Nodup ∧ (d.1.Pairwise fun x y => ¬ (lq o x y = true ∧ far x = far y)) ∧
    (∀ e ∈ es, ∃ f ∈ d.1, lq o f e = true ∧ far f = far e) ∧
    (∀ e ∈ d.2, ∃ f ∈ d.1, f ≠ e ∧ lq o f e = true ∧ far f = far e) := by
  intro d
  have h := C27_deduplicated_edges (lq_eq ho) (fun a : Edge N V L => addr (far a)) es
  have hnd : (d.1 ++ d.2).Nodup := h.perm.nodup_iff.2 hes
  have hcov : ∀ e ∈ es, ∃ f ∈ d.1, lq o f e = true ∧ far f = far e := by
    intro e he
    obtain ⟨f, h1, h2, h3⟩ := h.covers e he
    exact ⟨f, h1, h3, ha h2⟩
  refine ⟨fun e he => h.perm.mem_iff.1 (List.mem_append_left _ he), fun e he => h.perm.mem_iff.1 (List.mem_append_right _ he),
    (List.nodup_append.1 hnd).1, h.distinct.imp fun h1 h2 => h1 ⟨congrArg addr h2.2, h2.1⟩, hcov, fun e he => ?_⟩
  obtain ⟨f, h1, h2⟩ := hcov e (h.perm.mem_iff.1 (List.mem_append_right _ he))
  exact ⟨f, h1, (List.nodup_append.1 hnd).2.2 f h1 e he, h2⟩

theorem ent_graft {m c d : Nd N V L} {e : Edge N V L} {a : Entry N V L} (hc : ln o g hn c = ln o g hn m) :
    Ent o g hn (graft o addr (ln o g hn m) M m c e) d a ↔
      (d ≠ c ∧ Ent o g hn M d a) ∨ (d = c ∧ ∃ b, Ent o g hn M c b ∧ a = { b with carriers := some e :: b.carriers }) := by
  unfold Ent graft
  dsimp only
  by_cases h : ln o g hn d = ln o g hn m
  · rw [h, hc, Function.update_self, List.mem_map]
    constructor
    · rintro ⟨⟨b, hb, rfl⟩, h1⟩
      split_ifs at h1 ⊢ with h2
      · exact .inr ⟨h1.symm.trans h2, b, ⟨hb, h2⟩, rfl⟩
      · exact .inl ⟨by rintro rfl; exact h2 h1, hb, h1⟩
    · rintro (⟨h1, h2, rfl⟩ | ⟨rfl, b, ⟨hb, rfl⟩, rfl⟩)
      · exact ⟨⟨a, h2, if_neg h1⟩, rfl⟩
      · exact ⟨⟨b, hb, if_pos rfl⟩, rfl⟩
  · rw [Function.update_of_ne h]
    have : d ≠ c := by rintro rfl; exact h hc
    constructor
    · exact fun h => .inl ⟨this, h⟩
    · rintro (h | h)
      · exact h.2
      · exact absurd h.1 this

theorem inv_graft (ho : o.Lawful) (ha : Function.Injective addr) (hi : Inv o ask g hn M) {m c : Nd N V L} {e : Edge N V L} (he : IsAnte e) (het : e.tgt = m)
    (hre : Real ask g m) (hmk : M.mark m.root = true) (hnd : ¬ Done o g hn M m) (hc : St o g hn M c) (hmc : Eqv o g m c) :
    Inv o ask g hn (graft o addr (ln o g hn m) M m c e) := by
  have hln : ln o g hn c = ln o g hn m := Eqv.ln ho (Eqv.symm ho hmc)
  have hmn : m.isNew = true := het ▸ he.isNew
  have hcm : c ≠ m := by rintro rfl; exact hnd (.inl hc)
  have hnd' : (M.out m ++ M.out c).Nodup := by
    rw [hi.fresh m hmn hnd]
    refine List.nodup_append.2 ⟨gens_nodup _, hi.nodup c hc, fun x hx y hy => ?_⟩
    rintro rfl
    have h1 := gens_src hx
    have h2 := (hi.own c hc x hy).2.1
    rw [h1] at h2
    exact hnd h2
  obtain ⟨hd1, hd2, hd3, hd4, hd5, hd6⟩ := dedup_spec ho ha M.far _ hnd'
  generalize hM' : graft o addr (ln o g hn m) M m c e = M'
  have hE : ∀ {d a}, Ent o g hn M' d a ↔
      (d ≠ c ∧ Ent o g hn M d a) ∨ (d = c ∧ ∃ b, Ent o g hn M c b ∧ a = { b with carriers := some e :: b.carriers }) := by
    intro d a; rw [← hM']; exact ent_graft hln
  have hS : ∀ {d}, St o g hn M' d ↔ St o g hn M d := by
    intro d
    constructor
    · rintro ⟨a, h⟩
      rcases hE.1 h with ⟨-, h⟩ | ⟨rfl, -⟩
      · exact ⟨a, h⟩
      · exact hc
    · rintro ⟨a, h⟩
      by_cases hdc : d = c
      · subst hdc; exact ⟨_, hE.2 (.inr ⟨rfl, a, h, rfl⟩)⟩
      · exact ⟨a, hE.2 (.inl ⟨hdc, h⟩)⟩
  have hdead : M'.dead = m :: M.dead := by rw [← hM']; rfl
  have hD : ∀ {d}, Done o g hn M' d ↔ Done o g hn M d ∨ d = m := by
    intro d; unfold Done; rw [hS, hdead, List.mem_cons]; tauto
  have hfar : ∀ f, f ≠ e → M'.far f = M.far f := by
    intro f h; rw [← hM']; exact Function.update_of_ne h _ _
  have hfare : M'.far e = c := by rw [← hM']; exact Function.update_self _ _ _
  have hmark : M'.mark = M.mark := by rw [← hM']; rfl
  have hout : ∀ d, d ≠ m → d ≠ c → M'.out d = M.out d := by
    intro d h1 h2
    rw [← hM']
    unfold graft
    dsimp only
    rw [Function.update_of_ne h1, Function.update_of_ne h2]
  have houtc : M'.out c = (deduplicatedEdges (fun a => addr (M.far a)) (lq o) (M.out m ++ M.out c)).1 := by
    rw [← hM']; unfold graft; dsimp only; rw [Function.update_of_ne hcm, Function.update_self]
  have hfreed : M'.freed = (deduplicatedEdges (fun a => addr (M.far a)) (lq o) (M.out m ++ M.out c)).2 ++ M.freed := by rw [← hM']; rfl
  have hbad : M'.bad = M.bad := by rw [← hM']; rfl
  have hlane : ∀ i, ∀ a ∈ M'.tab i, ln o g hn a.node = i := by
    intro i a h
    rw [← hM'] at h
    unfold graft at h
    dsimp only at h
    by_cases hh : i = ln o g hn m
    · subst hh
      rw [Function.update_self] at h
      obtain ⟨b, hb, rfl⟩ := List.mem_map.1 h
      have := hi.lane _ b hb
      split_ifs <;> exact this
    · rw [Function.update_of_ne hh] at h
      exact hi.lane _ a h
  have hreps : ∀ i, (M'.tab i).Pairwise fun a b => ¬ Eqv o g a.node b.node := by
    intro i
    rw [← hM']
    unfold graft
    dsimp only
    by_cases hh : i = ln o g hn m
    · subst hh
      rw [Function.update_self, List.pairwise_map]
      refine (hi.reps _).imp fun {a b} h => ?_
      have : ∀ a : Entry N V L, (if a.node = c then { a with carriers := some e :: a.carriers } else a).node = a.node := by
        intro a; split_ifs <;> rfl
      rw [this, this]
      exact h
    · rw [Function.update_of_ne hh]
      exact hi.reps _
  rw [← houtc] at hd1 hd3 hd4 hd5 hd6
  have hfreed' : ∀ f ∈ M'.freed, f ∈ M.freed ∨ (f ∈ M.out m ++ M.out c ∧ ∃ f' ∈ M'.out c, f' ≠ f ∧ lq o f' f = true ∧ M.far f' = M.far f) := by
    intro f hf
    rw [hfreed] at hf
    rcases List.mem_append.1 hf with hf | hf
    · exact .inr ⟨hd2 f hf, hd6 f hf⟩
    · exact .inl hf
  clear hM' houtc hfreed hd2 hd6
  have hnm : ∀ d, St o g hn M d → d ≠ m := by rintro d h rfl; exact hnd (.inl h)
  have hfm : M.far e = m := by rw [hi.wait e he (by rw [het]; exact hnd), het]
  have hpost : ∀ f ∈ M.out m, ¬ IsAnte f ∧ f.src = m ∧ f ∈ gens ask g m := by
    intro f hf
    rw [hi.fresh m hmn hnd] at hf
    refine ⟨?_, gens_src hf, hf⟩
    rintro hfa
    have := hfa.src_new
    rw [gens_src hf, hmn] at this
    cases this
  constructor
  · exact hlane
  · exact hreps
  · intro d h
    rw [hmark]
    rcases hD.1 h with h | rfl
    · exact hi.real d h
    · exact ⟨hre, hmk⟩
  · intro a
    rw [hmark, hS]
    exact hi.mark a
  · rw [hmark]; exact hi.reach
  · intro d hd
    rw [hdead, List.mem_cons] at hd
    rw [hS]
    rcases hd with rfl | hd
    · exact ⟨hmn, fun h => hnd (.inl h), c, hS.2 hc, hmc⟩
    · obtain ⟨h1, h2, d', h3, h4⟩ := hi.dead d hd
      exact ⟨h1, h2, d', hS.2 h3, h4⟩
  · intro d h1 h2
    have hdm : d ≠ m := fun h => h2 (hD.2 (.inr h))
    have hdc : d ≠ c := by rintro rfl; exact h2 (hD.2 (.inl (.inl hc)))
    rw [hout d hdm hdc]
    exact hi.fresh d h1 fun h => h2 (hD.2 (.inl h))
  · intro f h1 h2
    have hfe : f ≠ e := by rintro rfl; exact h2 (hD.2 (.inr het))
    rw [hfar f hfe]
    exact hi.wait f h1 fun h => h2 (hD.2 (.inl h))
  · intro f hf
    have hfe : f ≠ e := by rintro rfl; exact hf he
    rw [hfar f hfe]
    exact hi.still f hf
  · intro f hf hd
    by_cases hfe : f = e
    · subst hfe
      rw [hfare]
      refine ⟨hS.2 hc, by rw [het]; exact hmc, fun _ a ha => ?_⟩
      rcases hE.1 ha with ⟨h, -⟩ | ⟨-, b, -, rfl⟩
      · exact absurd rfl h
      · exact List.mem_cons_self
    · have hd' := (hD.1 hd).resolve_right fun h => hfe (hf.eq he (h.trans het.symm))
      obtain ⟨h1, h2, h3⟩ := hi.far f hf hd'
      rw [hfar f hfe]
      refine ⟨hS.2 h1, h2, fun h a ha => ?_⟩
      rcases hE.1 ha with ⟨-, ha⟩ | ⟨hfc, b, hb, rfl⟩
      · exact h3 h a ha
      · exact List.mem_cons_of_mem _ (h3 h b (by rw [hfc]; exact hb))
  · intro d a hdn ha' y hy
    have hold : ∀ b, Ent o g hn M d b → y ∈ b.carriers → ∃ f, y = some f ∧ IsAnte f ∧ Done o g hn M' f.tgt ∧ M'.far f = d := by
      intro b hb hy
      obtain ⟨f, h1, h2, h3, h4⟩ := hi.carr d b hdn hb y hy
      refine ⟨f, h1, h2, hD.2 (.inl h3), ?_⟩
      rw [hfar f (by rintro rfl; exact hnd (het ▸ h3))]
      exact h4
    rcases hE.1 ha' with ⟨-, h⟩ | ⟨rfl, b, hb, rfl⟩
    · exact hold a h hy
    · rcases List.mem_cons.1 hy with rfl | hy
      · exact ⟨e, rfl, he, hD.2 (.inr het), hfare⟩
      · exact hold b hb hy
  · intro d hd f hf
    have hd' := hS.1 hd
    by_cases hdc : d = c
    · subst hdc
      rcases List.mem_append.1 (hd1 f hf) with h | h
      · obtain ⟨-, h1, h2⟩ := hpost f h
        rw [h1]
        exact ⟨h2, hD.2 (.inr rfl), hmc⟩
      · obtain ⟨h1, h2, h3⟩ := hi.own d hc f h
        exact ⟨h1, hD.2 (.inl h2), h3⟩
    · rw [hout d (hnm d hd') hdc] at hf
      obtain ⟨h1, h2, h3⟩ := hi.own d hd' f hf
      exact ⟨h1, hD.2 (.inl h2), h3⟩
  · intro d hd
    have hd' := hS.1 hd
    by_cases hdc : d = c
    · subst hdc; exact hd3
    · rw [hout d (hnm d hd') hdc]; exact hi.nodup d hd'
  · intro d s hd hs heq f hf
    have hd' := hS.1 hd
    by_cases hdc : d = c
    · subst hdc
      have : ∃ f' ∈ M.out m ++ M.out d, lq o f' f = true ∧ Eqv o g f'.tgt f.tgt := by
        rcases hD.1 hs with hs | rfl
        · obtain ⟨f', h1, h2⟩ := hi.cover d s hc hs heq f hf
          exact ⟨f', List.mem_append_right _ h1, h2⟩
        · refine ⟨f, List.mem_append_left _ ?_, (lq_eq ho).refl _, Eqv.refl ho _⟩
          rw [hi.fresh _ hmn hnd]; exact hf
      obtain ⟨f', h1, h2, h3⟩ := this
      obtain ⟨f'', h4, h5, h6⟩ := hd5 f' h1
      refine ⟨f'', h4, (lq_eq ho).trans _ _ _ h5 h2, Eqv.trans ho (hi.farEqv ho f'') ?_⟩
      rw [h6]
      exact Eqv.trans ho (Eqv.symm ho (hi.farEqv ho f')) h3
    · rw [hout d (hnm d hd') hdc]
      rcases hD.1 hs with hs | rfl
      · exact hi.cover d s hd' hs heq f hf
      · exact absurd (hi.uniq ho hd' hc (Eqv.trans ho (Eqv.symm ho heq) hmc)) hdc
  · intro a hma hal
    rw [hmark] at hma
    have hac : Nd.old a ≠ c := by
      rintro rfl
      exact hal m hmn (hD.2 (.inr rfl)) hmc
    have ham : Nd.old a ≠ m := by rintro rfl; cases hmn
    rw [hout _ ham hac]
    exact hi.alone a hma fun d h1 h2 => hal d h1 (hD.2 (.inl h2))
  · intro d hdn hd
    have hd' := hS.1 hd
    have hnoa : ∀ f ∈ M'.out d, f ≠ e := by
      rintro f hf rfl
      by_cases hdc : d = c
      · subst hdc
        rcases List.mem_append.1 (hd1 f hf) with h | h
        · exact (hpost f h).1 he
        · have := hi.ante_src ho hc h he
          rw [← this, he.src_new] at hdn
          cases hdn
      · rw [hout d (hnm d hd') hdc] at hf
        have := hi.ante_src ho hd' hf he
        rw [← this, he.src_new] at hdn
        cases hdn
    have : (M'.out d).Pairwise fun x y => ¬ (lq o x y = true ∧ M.far x = M.far y) := by
      by_cases hdc : d = c
      · subst hdc; exact hd4
      · rw [hout d (hnm d hd') hdc]; exact hi.multi d hdn hd'
    refine this.imp_of_mem fun {x y} hx hy h h' => h ?_
    rw [hfar x (hnoa x hx), hfar y (hnoa y hy)] at h'
    exact h'
  · intro f hf hfa hfn
    rcases hfreed' f hf with h | ⟨h, f', h1, h2, h3, h4⟩
    · refine hi.safe f h hfa ?_
      by_cases hfe : f = e
      · subst hfe; rw [hfm]; exact hmn
      · rwa [hfar f hfe] at hfn
    · have hfc : f ∈ M.out c := by
        rcases List.mem_append.1 h with h | h
        · exact absurd hfa (hpost f h).1
        · exact h
      have hsrc := hi.ante_src ho hc hfc hfa
      have hcold : c.isNew = false := by rw [← hsrc]; exact hfa.src_new
      have hfe : f ≠ e := by
        rintro rfl
        rw [hfare, hcold] at hfn
        cases hfn
      rw [hfar f hfe] at hfn
      -- the other edge leads to a new node too
      have hfa' : IsAnte f' := by
        by_contra hno
        have hg : f' ∈ gens ask g f'.src := by
          rcases List.mem_append.1 (hd1 f' h1) with h | h
          · rw [(hpost f' h).2.1]; exact (hpost f' h).2.2
          · exact (hi.own c hc f' h).1
        rcases gens_kind hg with ⟨h, -⟩ | ⟨-, h⟩
        · exact hno h
        · rw [← h4, hi.still f' hno, h] at hfn
          cases hfn
      have hfc' : f' ∈ M.out c := by
        rcases List.mem_append.1 (hd1 f' h1) with h | h
        · exact absurd hfa' (hpost f' h).1
        · exact h
      refine ⟨f', h2, hfa', (hi.ante_src ho hc hfc' hfa').trans hsrc.symm, ?_, (lq_eq ho).symm _ _ h3, ?_⟩
      · rcases gens_kind (hi.own c hc f' hfc').1 with ⟨-, h⟩ | ⟨h, -⟩
        · exact h
        · exact absurd hfa' h
      · refine Eqv.trans ho (hi.farEqv ho f) ?_
        rw [← h4]
        exact Eqv.symm ho (hi.farEqv ho f')
  · rw [hbad]; exact hi.bad

end Cru.Stretch
