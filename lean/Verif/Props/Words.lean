import Verif.Spec.Words
import Verif.Model.Product
import Verif.Props.Cross
import Verif.Props.Infer

/-! # C159: the words of products and copies -/

namespace Cru

variable {n : Nat} {N V V' L L' W M : Type}

theorem Spells.reaches {K M : Type} {edges : K → List (M × K)} {a b : K} {w : List M} (h : Spells edges a w b) :
    Reaches (fun k => (edges k).map (·.2)) a b := by
  induction h with
  | nil => exact .refl
  | cons he _ ih => exact .head (List.mem_map.2 ⟨_, he, rfl⟩) ih

theorem Spells.of_reaches {K M : Type} {edges : K → List (M × K)} {a b : K} (h : Reaches (fun k => (edges k).map (·.2)) a b) :
    ∃ w, Spells edges a w b := by
  induction h using Relation.ReflTransGen.head_induction_on with
  | refl => exact ⟨[], .nil _⟩
  | head hs _ ih =>
    obtain ⟨w, hw⟩ := ih
    obtain ⟨e, he, rfl⟩ := List.mem_map.1 hs
    exact ⟨e.1 :: w, .cons he hw⟩

/-- The words of a graph that depicts something are the words of what it depicts. -/
theorem Depicts.spells {K J W M : Type} {keys : List K} {base : K} {vertex : K → W} {edges : K → List (M × K)} {h : Gr J (Option W) M}
    (hc : Covers (fun k => (edges k).map (·.2)) base keys) (hd : Depicts keys base vertex edges h) (w : List M) (y : Option W) :
    (∃ j, Ends h w j ∧ h.vertex j = y) ↔ ∃ k, Spells edges base w k ∧ y = some (vertex k) := by
  obtain ⟨φ, -, -, hb, hk⟩ := hd
  have hcl : ∀ k ∈ keys, ∀ e ∈ edges k, e.2 ∈ keys := fun k hk e he =>
    (hc.mem _).2 (((hc.mem _).1 hk).tail (List.mem_map.2 ⟨e, he, rfl⟩))
  have hf : ∀ k ∈ keys, ∀ w k', Spells edges k w k' → k' ∈ keys ∧ Spells h.out (φ k) w (φ k') := by
    intro k hm w k' hs
    induction hs with
    | nil => exact ⟨hm, .nil _⟩
    | cons he _ ih =>
      have := ih (hcl _ hm _ he)
      exact ⟨this.1, .cons ((hk _ hm).2.1.mem_iff.2 (List.mem_map.2 ⟨_, he, rfl⟩)) this.2⟩
  have hg : ∀ a w j, Spells h.out a w j → ∀ k ∈ keys, a = φ k → ∃ k' ∈ keys, j = φ k' ∧ Spells edges k w k' := by
    intro a w j hs
    induction hs with
    | nil => exact fun k hm ha => ⟨k, hm, ha, .nil _⟩
    | cons he _ ih =>
      intro k hm ha
      subst ha
      obtain ⟨e, he', hee⟩ := List.mem_map.1 ((hk _ hm).2.1.mem_iff.1 he)
      cases hee
      obtain ⟨k', h1, h2, h3⟩ := ih _ (hcl _ hm _ he') rfl
      exact ⟨k', h1, h2, .cons he' h3⟩
  have hbase : base ∈ keys := (hc.mem _).2 .refl
  constructor
  · rintro ⟨j, hj, rfl⟩
    obtain ⟨k', h1, rfl, h3⟩ := hg _ _ _ hj base hbase hb
    exact ⟨k', h3, (hk _ h1).1⟩
  · rintro ⟨k, hs, rfl⟩
    obtain ⟨h1, h2⟩ := hf _ hbase _ _ hs
    exact ⟨φ k, by unfold Ends; rw [hb]; exact h2, (hk _ h1).1⟩

namespace Cross

theorem joint_spells (x : Crosser V V' L L' W M) (g : Gr N V L) (h : Gr N V' L') (p q : N × N) (v : List M) :
    Spells (joint x g h) p v q ↔ ∃ w : List (L × L'), (∀ e ∈ w, x.bpred e.1 e.2 = true) ∧ v = w.map (fun e => x.bop e.1 e.2) ∧
      Spells g.out p.1 (w.map (·.1)) q.1 ∧ Spells h.out p.2 (w.map (·.2)) q.2 := by
  constructor
  · intro hs
    induction hs with
    | nil a => exact ⟨[], by simp, rfl, .nil _, .nil _⟩
    | cons he _ ih =>
      obtain ⟨w, h1, h2, h3, h4⟩ := ih
      obtain ⟨l, hl, he⟩ := List.mem_flatMap.1 he
      obtain ⟨r, hr, he⟩ := List.mem_map.1 he
      obtain ⟨hr, hb⟩ := List.mem_filter.1 hr
      cases he
      refine ⟨(l.1, r.1) :: w, ?_, by rw [h2]; rfl, .cons hl h3, .cons hr h4⟩
      intro e he
      rcases List.mem_cons.1 he with rfl | he
      · exact hb
      · exact h1 e he
  · rintro ⟨w, h1, rfl, h3, h4⟩
    induction w generalizing p with
    | nil =>
      obtain ⟨a, b⟩ := p
      obtain ⟨c, d⟩ := q
      cases h3
      cases h4
      exact .nil _
    | cons e w ih =>
      obtain ⟨a, b⟩ := p
      cases h3 with
      | cons hl h3 =>
        cases h4 with
        | cons hr h4 =>
          refine .cons ?_ (ih (_, _) (fun e he => h1 e (List.mem_cons_of_mem _ he)) h3 h4)
          exact List.mem_flatMap.2 ⟨_, hl, List.mem_map.2 ⟨_, List.mem_filter.2 ⟨hr, h1 e List.mem_cons_self⟩, rfl⟩⟩

/-- **C159.** The words of the product are the products of words of equal length of both graphs wherein the labels at each position
satisfy the predicate, and the vertices where they end are the products of the vertices where those words end. -/
theorem C159_words {x : Crosser V V' L L' W M} {g : Gr N V L} {h : Gr N V' L'} [DecidableEq N] (hg : g.WF) (hh : h.WF) {addr : N → Nat} {hn : 0 < n}
    {r : Gr (Spawn.Id n) (Option W) M} (hc : Crossed x addr hn g h (.ok r)) (v : List M) (y : Option W) :
    (∃ j, Ends r v j ∧ r.vertex j = y) ↔
      ∃ (w : List (L × L')) (a b : N), v = w.map (fun e => x.bop e.1 e.2) ∧ (∀ e ∈ w, x.bpred e.1 e.2 = true) ∧
        Ends g (w.map (·.1)) a ∧ Ends h (w.map (·.2)) b ∧ y = some (x.vprod (g.vertex a) (h.vertex b)) := by
  obtain ⟨pairs, hp, -⟩ := C17_pairs x hg hh
  rw [(C17_product hp hc).1.spells hp]
  constructor
  · rintro ⟨⟨a, b⟩, hs, rfl⟩
    obtain ⟨w, h1, h2, h3, h4⟩ := (joint_spells x g h _ _ _).1 hs
    exact ⟨w, a, b, h2, h1, h3, h4, rfl⟩
  · rintro ⟨w, a, b, h2, h1, h3, h4, rfl⟩
    exact ⟨(a, b), (joint_spells x g h _ _ _).2 ⟨w, h1, h2, h3, h4⟩, rfl⟩

/-- **C159.** In particular, if the predicate is equality of labels and the product of two labels is the first of them, then the
product accepts just those words that both graphs accept. -/
theorem C159_intersection {x : Crosser V V' L L W L} {g : Gr N V L} {h : Gr N V' L} [DecidableEq N] [DecidableEq L] (hg : g.WF) (hh : h.WF) {addr : N → Nat} {hn : 0 < n}
    (hx : ∀ a b, x.bpred a b = decide (a = b)) (ho : ∀ a b, x.bop a b = a) {r : Gr (Spawn.Id n) (Option W) L}
    (hc : Crossed x addr hn g h (.ok r)) (v : List L) : Accepts r v ↔ Accepts g v ∧ Accepts h v := by
  constructor
  · rintro ⟨j, hj⟩
    obtain ⟨w, a, b, rfl, h1, h2, h3, -⟩ := (C159_words hg hh hc v _).1 ⟨j, hj, rfl⟩
    have e1 : w.map (fun e => x.bop e.1 e.2) = w.map (·.1) := List.map_congr_left fun e _ => ho _ _
    have e2 : w.map (·.1) = w.map (·.2) := List.map_congr_left fun e he => of_decide_eq_true ((hx _ _).symm.trans (h1 e he))
    rw [e1]
    exact ⟨⟨a, h2⟩, b, e2 ▸ h3⟩
  · rintro ⟨⟨a, ha⟩, b, hb⟩
    obtain ⟨j, hj, -⟩ := (C159_words hg hh hc v _).2 ⟨v.map fun l => (l, l), a, b, by simp [ho, Function.comp_def], by simp [hx],
      by simpa [Function.comp_def] using ha, by simpa [Function.comp_def] using hb, rfl⟩
    exact ⟨j, hj⟩

/-- **C159.** With no predicate given, the labels don't matter: a vertex of the one graph and a vertex of the other have their product in
the result just if there are paths of equal length to them, and any two words of equal length have a product. -/
theorem C159_default [DecidableEq N] {u : Env V V' L L' W M} {c : Infer.Crosser} {i j : Nat} (hp : c.bpred = none) (ho : c.bop = some (.user i)) (hv : c.vProd = some (.user j))
    {lim : Nat} {g : Gr N V L} {h : Gr N V' L'} (hg : g.WF) (hh : h.WF) {addr : N → Nat} {hn : 0 < n} {r : Gr (Spawn.Id n) (Option W) M}
    (hc : CrossedBy u c lim addr hn g h (.ok r)) (v : List M) (y : Option W) :
    (∃ j, Ends r v j ∧ r.vertex j = y) ↔
      ∃ (s : List L) (t : List L') (a b : N), s.length = t.length ∧ v = List.zipWith (u.bop i) s t ∧
        Ends g s a ∧ Ends h t b ∧ y = some (u.vprod j (g.vertex a) (h.vertex b)) := by
  unfold CrossedBy at hc
  cases hi : Infer.inferredCrosser c with
  | error e => rw [hi] at hc; cases hc
  | ok c' =>
    rw [hi] at hc
    obtain ⟨x, hx, hc⟩ := hc
    have hb : c'.bpred = some .trueBpred := by
      obtain ⟨v, s, p, o⟩ := c
      cases hp; cases ho; cases hv
      simp only [Infer.inferredCrosser, bind, Except.bind] at hi
      split at hi
      · cases hi
      · revert hi
        generalize Infer.fullOrder _ = f
        cases f <;> simp [pure, Except.pure]
        rintro rfl
        rfl
    obtain ⟨-, -, -, -, h1, h2⟩ := Infer.C52_crosser c c' hi
    rw [ho] at h1
    rw [hv] at h2
    simp only [Env.crosser, h1, h2, hb, Env.callVprod, Env.callBop, Option.some.injEq] at hx
    subst hx
    rw [C159_words hg hh hc]
    constructor
    · rintro ⟨w, a, b, rfl, -, h3, h4, rfl⟩
      refine ⟨w.map (·.1), w.map (·.2), a, b, by simp, ?_, h3, h4, rfl⟩
      rw [List.zipWith_map]
      simp
    · rintro ⟨s, t, a, b, hl, rfl, h3, h4, rfl⟩
      refine ⟨s.zip t, a, b, ?_, by simp [Env.callBpred], ?_, ?_, rfl⟩
      · rw [List.zip_eq_zipWith, List.map_zipWith]
      · rwa [List.map_fst_zip (by omega)]
      · rwa [List.map_snd_zip (by omega)]

end Cross

/-- **C159.** The words of a copy made by cru_fabricated are those of the given graph with every label replaced, and the vertices where they
end are the replacements of the vertices where those words end. -/
theorem Fab.C159_copy [DecidableEq N] {g : Gr N V L} (hg : g.WF) {vf : V → W} {ef : L → M} {addr : N → Nat} {hn : 0 < n} {h : Gr (Spawn.Id n) (Option W) M}
    (hf : Fab.Fabricated vf ef addr hn g (.ok h)) (v : List M) (y : Option W) :
    (∃ j, Ends h v j ∧ h.vertex j = y) ↔ ∃ (w : List L) (a : N), v = w.map ef ∧ Ends g w a ∧ y = some (vf (g.vertex a)) := by
  have hc : Covers (fun m => ((g.out m).map fun e => (ef e.1, e.2)).map (·.2)) g.base g.nodes := by
    refine ⟨hg.nodup, fun m => ?_⟩
    rw [hg.reach]
    have : (fun m => ((g.out m).map fun e => (ef e.1, e.2)).map (·.2)) = g.next false := by
      funext m
      rw [Duplex.next_out, List.map_map]
      rfl
    rw [this]
  have hs : ∀ a v m, Spells (fun m => (g.out m).map fun e => (ef e.1, e.2)) a v m ↔ ∃ w, v = w.map ef ∧ Spells g.out a w m := by
    intro a v m
    constructor
    · intro h
      induction h with
      | nil => exact ⟨[], rfl, .nil _⟩
      | cons he _ ih =>
        obtain ⟨w, rfl, hw⟩ := ih
        obtain ⟨e, hm, hee⟩ := List.mem_map.1 he
        cases hee
        exact ⟨e.1 :: w, rfl, .cons hm hw⟩
    · rintro ⟨w, rfl, h⟩
      induction h with
      | nil => exact .nil _
      | cons he _ ih => exact .cons (List.mem_map.2 ⟨_, he, rfl⟩) ih
  rw [(Fab.C16_copy hg hf).1.spells hc]
  constructor
  · rintro ⟨m, h, rfl⟩
    obtain ⟨w, rfl, hw⟩ := (hs _ _ _).1 h
    exact ⟨w, m, rfl, hw, rfl⟩
  · rintro ⟨w, m, rfl, hw, rfl⟩
    exact ⟨m, (hs _ _ _).2 ⟨w, rfl, hw⟩, rfl⟩

namespace Cross

/-- Products of equal labels only. -/
def matcher : Crosser Nat Nat Nat Nat (Nat × Nat) Nat := ⟨Prod.mk, fun a b => decide (a = b), fun a _ => a, 0⟩

/-- Some call without a vertex limit isn't killed and returns a graph. -/
theorem returns (x : Crosser V V' L L' W M) (hx : x.vertexLimit = 0) {g : Gr N V L} {h : Gr N V' L'} [DecidableEq N] (hg : g.WF) (hh : h.WF) (addr : N → Nat) (hn : 0 < n) :
    ∃ r, Crossed x addr hn g h (.ok r) := by
  obtain ⟨pairs, hp, -⟩ := C17_pairs x hg hh
  obtain ⟨⟨r, hr, hk⟩, h2⟩ := C74_verdict (n := n) (addr := addr) (hn := hn) x hp
  rcases r with e | r
  · rcases C74_beyond hp hr with rfl | ⟨-, h0, -⟩
    · exact absurd rfl hk
    · exact absurd hx h0
  · exact ⟨r, hr⟩

/-- Non-vacuity of C159: the product of a ring labelled 0 and 1 and a ring labelled 0, 1 and 2 accepts the word 0, 1, at whose end is the
pair of the vertices 10 and 12, and although the first accepts the word 0, 1, 0, the product doesn't. -/
example : ∃ r, Crossed matcher id (show 0 < 3 by decide) (ring 2) (ring 3) (.ok r) ∧ (∃ j, Ends r [0, 1] j ∧ r.vertex j = some (10, 12)) ∧
    Accepts (ring 2) [0, 1, 0] ∧ ¬ Accepts r [0, 1, 0] := by
  have w2 := ring_wf 2 (by decide)
  have w3 := ring_wf 3 (by decide)
  obtain ⟨r, hr⟩ := returns matcher rfl w2 w3 id (show 0 < 3 by decide)
  refine ⟨r, hr, ?_, ⟨1, ?_⟩, ?_⟩
  · refine (C159_words w2 w3 hr _ _).2 ⟨[(0, 0), (1, 1)], 0, 2, rfl, by decide, ?_, ?_, rfl⟩
    · exact .cons (b := 1) (by decide) (.cons (b := 0) (by decide) (.nil _))
    · exact .cons (b := 1) (by decide) (.cons (b := 2) (by decide) (.nil _))
  · exact .cons (b := 1) (by decide) (.cons (b := 0) (by decide) (.cons (b := 1) (by decide) (.nil _)))
  · rw [C159_intersection w2 w3 (fun _ _ => rfl) (fun _ _ => rfl) hr]
    rintro ⟨-, b, hb⟩
    cases hb with
    | cons h1 hb =>
      simp [ring] at h1
      subst h1
      cases hb with
      | cons h1 hb =>
        simp [ring] at h1
        subst h1
        cases hb with
        | cons h1 hb => simp [ring] at h1

/-- Functions of the user that pair up vertices and add labels. -/
def pairing : Env Nat Nat Nat Nat (Nat × Nat) Nat := ⟨fun _ => Prod.mk, fun _ _ _ => false, fun _ => (· + ·)⟩

/-- Non-vacuity of C159: with no predicate given, the words 0, 1, 0 and 0, 1, 2 have a product, which ends at the pair of the vertices 11 and 10. -/
example : ∃ r, CrossedBy pairing ⟨some (.user 0), ⟨⟨none, none⟩, ⟨none, none⟩, none, none⟩, none, some (.user 1)⟩ 0 id (show 0 < 3 by decide) (ring 2) (ring 3) (.ok r) ∧
    ∃ j, Ends r [0, 2, 2] j ∧ r.vertex j = some (11, 10) := by
  have w2 := ring_wf 2 (by decide)
  have w3 := ring_wf 3 (by decide)
  obtain ⟨r, hr⟩ := returns (⟨Prod.mk, fun _ _ => true, (· + ·), 0⟩ : Crosser Nat Nat Nat Nat (Nat × Nat) Nat) rfl w2 w3 id (show 0 < 3 by decide)
  have hb : CrossedBy pairing ⟨some (.user 0), ⟨⟨none, none⟩, ⟨none, none⟩, none, none⟩, none, some (.user 1)⟩ 0 id (show 0 < 3 by decide) (ring 2) (ring 3) (.ok r) :=
    ⟨_, rfl, hr⟩
  refine ⟨r, hb, (C159_default rfl rfl rfl w2 w3 hb _ _).2 ⟨[0, 1, 0], [0, 1, 2], 1, 0, rfl, rfl, ?_, ?_, rfl⟩⟩
  · exact .cons (b := 1) (by decide) (.cons (b := 0) (by decide) (.cons (b := 1) (by decide) (.nil _)))
  · exact .cons (b := 1) (by decide) (.cons (b := 2) (by decide) (.cons (b := 0) (by decide) (.nil _)))

/-- Non-vacuity of C159: a copy of the ring labelled 0, 1 and 2 with successors of labels accepts 1, 2, 3. -/
example : ∃ h, Fab.Fabricated (W := String) toString (· + 1) id (show 0 < 3 by decide) (ring 3) (.ok h) ∧ ∃ j, Ends h [1, 2, 3] j ∧ h.vertex j = some "10" := by
  have w3 := ring_wf 3 (by decide)
  obtain ⟨h, hf⟩ := (Fab.C16_terminates w3 (W := String) toString (· + 1) id (show 0 < 3 by decide)).2
  refine ⟨h, hf, (Fab.C159_copy w3 hf _ _).2 ⟨[0, 1, 2], 0, rfl, ?_, rfl⟩⟩
  exact .cons (b := 1) (by decide) (.cons (b := 2) (by decide) (.cons (b := 0) (by decide) (.nil _)))

end Cross

end Cru
