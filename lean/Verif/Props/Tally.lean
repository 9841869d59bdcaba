import Verif.Props.Count
import Verif.Props.Cross
import Verif.Props.MutateFull
import Verif.Props.Merge
import Verif.Props.Filter

/-! # C162: counts before and after an operation -/

namespace Cru.Count

variable {n n₁ n₂ n₃ : Nat} {N J V V' L L' W M : Type} [DecidableEq N] {w : Nat}

theorem edgeCount_sum (g : Gr N V L) : edgeCount g = (g.nodes.map fun m => (g.out m).length).sum := by
  rw [edgeCount, List.length_flatMap]

theorem rightCount_depicts {K : Type} [DecidableEq J] {keys : List K} {base : K} {vertex : K → W} {edges : K → List (M × K)} {h : Gr J (Option W) M}
    (hd : Depicts keys base vertex edges h) :
    rightCount h .vertices = keys.length ∧ rightCount h .edges = (keys.map fun k => (edges k).length).sum ∧
      rightCount h .termini = (keys.filter fun k => (edges k).isEmpty).length := by
  obtain ⟨φ, -, hp, -, hk⟩ := hd
  refine ⟨by simp [rightCount, vertexCount, hp.length_eq], ?_, ?_⟩
  · change edgeCount h = _
    rw [edgeCount_sum, (hp.map _).sum_eq, List.map_map]
    congr 1
    exact List.map_congr_left fun k hm => by simp [(hk k hm).2.1.length_eq]
  · change terminusCount h = _
    rw [terminusCount, (hp.filter _).length_eq, List.filter_map, List.length_map]
    congr 1
    refine List.filter_congr fun k hm => ?_
    simp [(hk k hm).2.1.isEmpty_eq]

/-- **C162.** A copy made by `cru_fabricated` has the same numbers of vertices, termini and edges. -/
theorem C162_copied {g : Gr N V L} (hg : g.WF) {vf : V → W} {ef : L → M} {addr : N → Nat} {hn : 0 < n} {h : Gr (Spawn.Id n) (Option W) M}
    (hf : Fab.Fabricated vf ef addr hn g (.ok h)) {k : Kind} (hw : rightCount g k < w) {hash : N → Nat} {hash' : Spawn.Id n → Nat} {c c' : Nat} {f f' : Prop}
    (h₁ : Returns w k g hash n₁ c f) (h₂ : Returns w k h hash' n₂ c' f') : c' = c ∧ ¬ f' := by
  obtain ⟨hc, hh⟩ := Fab.C16_copy hg hf
  have he : rightCount h k = rightCount g k := by
    obtain ⟨e1, e2, e3⟩ := rightCount_depicts hc
    cases k
    · exact e1
    · rw [e3]
      change _ = terminusCount g
      rw [terminusCount]
      congr 1
      exact List.filter_congr fun m _ => by simp
    · rw [e2]
      change _ = edgeCount g
      rw [edgeCount_sum]
      simp
  have a := C14_count hg hw h₁
  have b := C14_count hh (he.symm ▸ hw) h₂
  exact ⟨b.1.trans (he.trans a.1.symm), b.2⟩

/-- **C162.** A product has at most as many vertices as there are pairs of vertices, and at most as many edges as there are pairs of edges. -/
theorem C162_crossed {x : Cross.Crosser V V' L L' W M} {g : Gr N V L} {h : Gr N V' L'} (hg : g.WF) (hh : h.WF) {addr : N → Nat} {hn : 0 < n}
    {r : Gr (Spawn.Id n) (Option W) M} (hc : Cross.Crossed x addr hn g h (.ok r)) {k : Kind} (hk : k ≠ .termini)
    (hw₁ : rightCount g k < w) (hw₂ : rightCount h k < w) (hw₃ : rightCount r k < w) {hash₁ hash₂ : N → Nat} {hash₃ : Spawn.Id n → Nat} {c₁ c₂ c₃ : Nat} {f₁ f₂ f₃ : Prop}
    (h₁ : Returns w k g hash₁ n₁ c₁ f₁) (h₂ : Returns w k h hash₂ n₂ c₂ f₂) (h₃ : Returns w k r hash₃ n₃ c₃ f₃) : c₃ ≤ c₁ * c₂ := by
  obtain ⟨pairs, hp, hin⟩ := Cross.C17_pairs x hg hh
  obtain ⟨hd, hr⟩ := Cross.C17_product hp hc
  obtain ⟨e1, e2, -⟩ := rightCount_depicts hd
  rw [(C14_count hg hw₁ h₁).1, (C14_count hh hw₂ h₂).1, (C14_count hr hw₃ h₃).1]
  have hsub : pairs.Subperm (g.nodes ×ˢ h.nodes) :=
    List.Nodup.subperm hp.nodup fun p hm => List.mem_product.2 (hin p hm)
  have hprod : ∀ (as bs : List N) (f f' : N → Nat), ((as ×ˢ bs).map fun p => f p.1 * f' p.2).sum = (as.map f).sum * (bs.map f').sum := by
    intro as bs f f'
    induction as with
    | nil => simp
    | cons a as ih =>
      rw [List.product_cons, List.map_append, List.sum_append, ih, List.map_cons, List.sum_cons, Nat.add_mul, List.map_map]
      congr 1
      rw [← List.sum_map_mul_left]
      rfl
  have hmono : ∀ (ps qs : List (N × N)) (f : N × N → Nat), ps.Subperm qs → (ps.map f).sum ≤ (qs.map f).sum := by
    rintro ps qs f ⟨l, hl, hs⟩
    rw [← (hl.map f).sum_eq]
    exact (hs.map f).sum_le_sum (by simp)
  cases k
  · rw [e1]
    have := hsub.length_le
    rwa [List.length_product] at this
  · exact absurd rfl hk
  · rw [e2]
    change _ ≤ edgeCount g * edgeCount h
    rw [edgeCount_sum, edgeCount_sum, ← hprod]
    refine le_trans (List.sum_le_sum fun p _ => ?_) (hmono pairs _ (fun p => (g.out p.1).length * (h.out p.2).length) hsub)
    unfold Cross.joint
    rw [List.length_flatMap]
    refine le_trans (List.sum_le_card_nsmul _ (h.out p.2).length ?_) ?_
    · intro y hy
      obtain ⟨l, -, rfl⟩ := List.mem_map.1 hy
      rw [List.length_map]
      exact List.length_filter_le _ _
    · simp

/-- **C162.** The graph returned by `cru_filtered` has no more vertices than the given one, and no more edges. -/
theorem C162_filtered [DecidableEq L] {u : Filter.Filter V L} (hl : u.Lawful) (ht : u.thinner = none) {g R : Gr N V L} (hg : g.WF) {initial : N} {addr : N → Nat} {hn : 0 < n}
    (h : Filter.Filters u g false initial addr hn 0 0 0 (.ok (some R))) {k : Kind} (hk : k ≠ .termini) (hw : rightCount g k < w)
    {hash hash' : N → Nat} {c c' : Nat} {f f' : Prop} (h₁ : Returns w k g hash n₁ c f) (h₂ : Returns w k R hash' n₂ c' f') : c' ≤ c ∧ ¬ f' := by
  have hR := Filter.C29_wf hg hl ht h
  have hf := (Filter.C29_filtered hg hl ht h).2
  have hsub : R.nodes.Subperm g.nodes := List.Nodup.subperm hR.nodup fun m hm => (Filter.C29_pass hg hl ht h hm).2.1
  have hle : rightCount R k ≤ rightCount g k := by
    cases k
    · exact hsub.length_le
    · exact absurd rfl hk
    · change edgeCount R ≤ edgeCount g
      rw [edgeCount_sum, edgeCount_sum]
      obtain ⟨l, hl', hs⟩ := hsub
      refine le_trans (List.sum_le_sum (g := fun m => (g.out m).length) fun m hm => ?_) ?_
      · rw [(hf.out m hm).length_eq]
        exact List.length_filter_le _ _
      · rw [← (hl'.map _).sum_eq]
        exact (hs.map _).sum_le_sum (by simp)
  have a := C14_count hg hw h₁
  have b := C14_count hR (lt_of_le_of_lt hle hw) h₂
  exact ⟨b.1 ▸ a.1 ▸ hle, b.2⟩

/-- **C162.** The graph returned by `cru_mutated` has the same numbers of vertices, termini and edges. -/
theorem C162_mutated [DecidableEq L] {p : Mutate.Plan} {b : N} {ker : Mutate.Kernel V L} {g h : Gr N V L} {addr : N → Nat} {hn : 0 < n} {k₃ : Nat} {s : Mutate.Job n N V L}
    (hg : Mutate.Full g) (hr : Mutate.Mutates g p b ker addr hn 0 0 k₃ s (.ok h)) {k : Kind} (hw : rightCount g k < w)
    {hash hash' : N → Nat} {c c' : Nat} {f f' : Prop} (h₁ : Returns w k g hash n₁ c f) (h₂ : Returns w k h hash' n₂ c' f') : c' = c ∧ ¬ f' := by
  obtain ⟨h1, -, h3, -⟩ := Mutate.C85_shape hg hr
  have hl : ∀ m, (h.out m).length = (g.out m).length := fun m => by simpa using congrArg List.length (h3 m).1
  have he : rightCount h k = rightCount g k := by
    cases k
    · simp [rightCount, vertexCount, h1]
    · simp only [rightCount, terminusCount, h1]
      congr 1
      refine List.filter_congr fun m _ => ?_
      rw [Bool.eq_iff_iff, List.isEmpty_iff_length_eq_zero, List.isEmpty_iff_length_eq_zero, hl]
    · change edgeCount h = edgeCount g
      rw [edgeCount_sum, edgeCount_sum, h1]
      simp [hl]
  have a := C14_count hg.wf hw h₁
  have b := C14_count (Mutate.C85_full hg hr).wf (he.symm ▸ hw) h₂
  exact ⟨b.1.trans (he.trans a.1.symm), b.2⟩

/-- **C162.** Without a pruner, the graph returned by `cru_merged` has as many vertices as there are classes, of which the list `reps` has one
member each. -/
theorem C162_merged {X : Type} [DecidableEq X] {g R : Gr N V L} {c : Partition.Classifier N X} {val : N → Option X} {same : Option X → Option X → Bool}
    {o : Merge.EdgeOps N L} {vop : Option (List N → V)} {addr : N → Nat}
    (hg : g.WF) (hmap : ∀ t m, c.map t m = (val m, 0)) (heq : ∀ t x y, c.equal t x y = (same x y, 0))
    (hs : IsEquality same) (hh : HashRespects c.hash same) (hl : IsEquality o.eq) (hlh : HashRespects o.hash o.eq)
    (ha : Function.Injective addr) {hn : 0 < n} {x : Net.State n N (Trav.Job n N (Partition.Mem N X))} (hx : Partition.Sets g c addr hn x)
    (hk : x.g.killed = 0) (hR : Merge.Merges g c o vop addr hn x.g R) (ho : o.pruner = none)
    {reps : List N} (hr : ∀ a ∈ reps, a ∈ g.nodes) (hp : reps.Pairwise fun a b => same (val a) (val b) = false)
    (hc : ∀ a ∈ g.nodes, ∃ b ∈ reps, same (val a) (val b) = true)
    (hw : reps.length < w) {hash : N → Nat} {c' : Nat} {f : Prop} (h : Returns w .vertices R hash n₁ c' f) : c' = reps.length ∧ ¬ f := by
  obtain ⟨cls, hq⟩ := Merge.C33_quotient hg hmap heq hs hh hl hlh ha hx hk hR
  have he : (reps.map cls).Perm R.nodes := by
    refine (List.perm_ext_iff_of_nodup ?_ hq.wf.nodup).2 fun m => ⟨fun hm => ?_, fun hm => ?_⟩
    · rw [List.nodup_iff_pairwise_ne, List.pairwise_map]
      refine List.Pairwise.imp_of_mem (fun {a b} ha' hb' h1 h2 => ?_) hp
      have e1 := (hq.member a (hr a ha')).2
      have e2 := (hq.member b (hr b hb')).2
      rw [h2] at e1
      have := hs.trans _ _ _ e1 (hs.symm _ _ e2)
      rw [h1] at this
      cases this
    · obtain ⟨a, h1, rfl⟩ := List.mem_map.1 hm
      exact hq.all ho a (hr a h1)
    · obtain ⟨h1, h2⟩ := hq.nodes m hm
      obtain ⟨b, h3, h4⟩ := hc m h1
      exact List.mem_map.2 ⟨b, h3, by rw [← h2]; exact (hq.same m h1 b (hr b h3) h4).symm⟩
  have hv : rightCount R .vertices = reps.length := by
    change R.nodes.length = _
    rw [← he.length_eq, List.length_map]
  have b := C14_count hq.wf (by rw [hv]; exact hw) h
  exact ⟨b.1.trans hv, b.2⟩

/-- Some calls of the counting functions return. -/
theorem some_count {g : Gr N V L} (hg : g.WF) (k : Kind) (w : Nat) (hash : N → Nat) (hn : 0 < n) : ∃ c f, Returns w k g hash n c f :=
  (C14_returns hg hn).2

/-- Non-vacuity of C162: the product of rings of two and of three has six vertices, which is just as many as it may have, and a copy of it has
six edges. -/
example : ∃ (r : Gr (Spawn.Id 2) (Option Nat) Nat) (f : Prop), Cross.Crossed (Cross.adder 8) id (show 0 < 2 by decide) (Cross.ring 2) (Cross.ring 3) (.ok r) ∧
    Returns 100 .vertices r (fun _ => 0) 3 6 f ∧ r.WF ∧
    ∃ (q : Gr (Spawn.Id 4) (Option (Option Nat)) Nat) (f' : Prop), Fab.Fabricated id id (fun _ => 1) (show 0 < 4 by decide) r (.ok q) ∧ Returns 100 .edges q (fun _ => 0) 5 6 f' := by
  obtain ⟨⟨r, hr, hk⟩, h2⟩ := Cross.C74_verdict (n := 2) (addr := id) (hn := by decide) (Cross.adder 8) (Cross.ring_pairs 8)
  have h3 := (h2 r hr hk).not.2 (by rintro ⟨-, i, hi⟩; revert hi; revert i; decide)
  rcases r with e | r
  · rcases Cross.C74_beyond (Cross.ring_pairs 8) hr with rfl | ⟨rfl, -⟩
    · exact absurd rfl hk
    · exact absurd rfl h3
  · obtain ⟨hd, hwf⟩ := Cross.C17_product (Cross.ring_pairs 8) hr
    obtain ⟨e1, e2, -⟩ := rightCount_depicts hd
    have e1' : rightCount r .vertices = 6 := e1
    have e2' : rightCount r .edges = 6 := e2.trans (by decide)
    obtain ⟨c, f, hc⟩ := some_count hwf .vertices 100 (fun _ => 0) (show 0 < 3 by decide)
    have hc' := (C14_count hwf (by rw [e1']; decide) hc).1
    rw [e1'] at hc'
    obtain ⟨q, hq⟩ := (Fab.C16_terminates hwf (W := Option Nat) (M := Nat) id id (fun _ => 1) (show 0 < 4 by decide)).2
    obtain ⟨-, hqw⟩ := Fab.C16_copy hwf hq
    obtain ⟨c₁, f₁, h₁⟩ := some_count hwf .edges 100 (fun _ => 0) (show 0 < 5 by decide)
    obtain ⟨c₂, f₂, h₂⟩ := some_count hqw .edges 100 (fun _ => 0) (show 0 < 5 by decide)
    have e3 := (C162_copied hwf hq (by rw [e2']; decide) h₁ h₂).1
    rw [(C14_count hwf (by rw [e2']; decide) h₁).1, e2'] at e3
    exact ⟨r, f, hr, hc' ▸ hc, hwf, q, f₂, hq, e3 ▸ h₂⟩

/-- Non-vacuity of C162_merged: the classes of even and of odd numbers make two vertices. -/
example : ∃ x R f, Partition.Sets demo Merge.parity id (show 0 < 3 by decide) x ∧ x.g.killed = 0 ∧
    Merge.Merges demo Merge.parity Merge.adding (some List.sum) id (show 0 < 3 by decide) x.g R ∧ Returns 100 .vertices R id 5 2 f := by
  obtain ⟨-, -, -, x, R, h1, h2, h3⟩ := Merge.C33_terminates (g := demo) (c := Merge.parity) (o := Merge.adding) (addr := id)
    (val := fun m => some (m % 2)) demo_wf (fun _ _ => rfl) (fun _ _ _ => rfl) Merge.decide_equality (Merge.decide_respects _)
    Merge.decide_equality (Merge.decide_respects _) (fun _ _ h => h) (show 0 < 3 by decide) List.sum
  obtain ⟨cls, hq⟩ := Merge.C33_quotient (val := fun m => some (m % 2)) demo_wf (fun _ _ => rfl) (fun _ _ _ => rfl) Merge.decide_equality
    (Merge.decide_respects _) Merge.decide_equality (Merge.decide_respects _) (fun _ _ h => h) h1 h2 h3
  obtain ⟨c, f, hc⟩ := some_count hq.wf .vertices 100 id (show 0 < 5 by decide)
  have := (C162_merged (val := fun m => some (m % 2)) demo_wf (fun _ _ => rfl) (fun _ _ _ => rfl) Merge.decide_equality
    (Merge.decide_respects _) Merge.decide_equality (Merge.decide_respects _) (fun _ _ h => h) h1 h2 h3 rfl (reps := [0, 1])
    (by decide) (by decide) (by decide) (by decide) hc).1
  exact ⟨x, R, f, h1, h2, h3, by rw [this] at hc; exact hc⟩

/-- Non-vacuity of C162_mutated: the edges are counted on two lanes after a mutation on any number of lanes. -/
example (hn : 0 < n) : ∃ s h f, Mutate.Mutates Mutate.kite ⟨false, true, false⟩ 0 Mutate.adder id hn 0 0 0 s (.ok h) ∧ Returns 100 .edges h id 2 4 f := by
  obtain ⟨s, h, hr⟩ := Mutate.C20_exists (b := 0) Mutate.kite_full (by decide) Mutate.adder_ok ⟨false, true, false⟩ id hn
  obtain ⟨c, f, h₁⟩ := some_count Mutate.kite_full.wf .edges 100 id (show 0 < 2 by decide)
  obtain ⟨c', f', h₂⟩ := some_count (Mutate.C85_full Mutate.kite_full hr).wf .edges 100 id (show 0 < 2 by decide)
  have e := (C162_mutated Mutate.kite_full hr (by decide) h₁ h₂).1
  rw [(C14_count Mutate.kite_full.wf (by decide) h₁).1] at e
  exact ⟨s, h, f', hr, by rw [e] at h₂; exact h₂⟩

/-- Non-vacuity of C162_filtered: of the vertices of `net`, some remain. -/
example (hn : 0 < n) (addr : Nat → Nat) : ∃ R c f, Filter.Filters Filter.sieve Filter.net false 0 addr hn 0 0 0 (.ok (some R)) ∧ Returns 100 .vertices R id 2 c f ∧
    c ≤ vertexCount Filter.net := by
  obtain ⟨r, hr⟩ := Filter.C29_exists Filter.net_wf Filter.sieve_lawful addr hn 0
  have hb := Filter.C29_correct Filter.net_wf Filter.sieve_lawful rfl (fun m _ e => (Filter.sieve_quiet _ m e).1) (fun m _ e => (Filter.sieve_quiet _ m e).2) hr
  rw [if_neg (by decide)] at hb
  obtain ⟨R, rfl, -⟩ := hb
  obtain ⟨c, f, h₁⟩ := some_count Filter.net_wf .vertices 100 id (show 0 < 2 by decide)
  obtain ⟨c', f', h₂⟩ := some_count (Filter.C29_wf Filter.net_wf Filter.sieve_lawful rfl hr) .vertices 100 id (show 0 < 2 by decide)
  have e := (C162_filtered Filter.sieve_lawful rfl Filter.net_wf hr (by decide) (by decide) h₁ h₂).1
  rw [(C14_count Filter.net_wf (by decide) h₁).1] at e
  exact ⟨R, c', f', hr, h₂, e⟩

end Cru.Count
