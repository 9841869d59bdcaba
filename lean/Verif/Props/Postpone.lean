import Verif.Proofs.Postpone
import Verif.Proofs.Demo
import Verif.Props.Compose

/-! # Postponement: C40 and C70-C72 -/

namespace Cru.Postpone

open Net

variable {n : Nat} {N V L : Type} [DecidableEq N] {p : Postponer V L} {eq : L → L → Bool} {addr : N → Nat} {hn : 0 < n} {g : Gr N V L}

/-- **C40.** A single pass of `cru_postponed` that isn't killed ends without an error, and yields the same vertices, all reachable, where the
edges are those which are not to be deleted, and one for each pair that satisfies the predicate, from the terminus of the second edge
to that of the first.  Where any are created, repetitions are removed. -/
theorem C40_postponed (hw : g.WF) (he : IsEquality eq) (ha : Function.Injective addr) (hfix : p.fix = false) {M : Mem N V L}
    {ks : List (Nat × Nat)} {err : Int} (h : Postpones p eq addr hn g M ks err) (hks : ∀ k ∈ ks, k = (0, 0)) :
    err = 0 ∧ Moved p eq g M := by
  obtain ⟨hl, rfl⟩ := h
  cases hl with
  | more _ h2 _ => rw [hfix] at h2; cases h2
  | @last _ _ ch k₁ k₂ hi _ =>
    have := hks (k₁, k₂) (by simp)
    cases this
    exact ⟨by simp, (iter_moved hw he ha hi).1⟩

/-- **C40.** A pass terminates, killed or not: neither traversal can go on forever, and there is a pass that isn't killed. -/
theorem C40_terminates (hw : g.WF) (he : IsEquality eq) (ha : Function.Injective addr) (p : Postponer V L) (hn : 0 < n) :
    Merge.Ends (postponing p addr hn) (.visit g.base) (Trav.start (mem g)) ∧
    (∀ x, Net.Reach (postponing p addr hn) (.visit g.base) (Trav.start (mem g)) x → x.main = .done →
      Merge.Ends (absorbing eq addr hn) g.base (Trav.start (x.g.mem, fun _ => false))) ∧
    ∃ M ch, Iter p eq addr hn g.base (mem g) M ch 0 0 := by
  have a1 := postponing_acc (p := p) (addr := addr) (hn := hn) (mem g) g.base g.nodes (fun m h => (hw.reach m).2 h)
  have a2 : ∀ x, Net.Reach (postponing p addr hn) (.visit g.base) (Trav.start (mem g)) x → x.main = .done → _ := fun x hx hd =>
    absorbing_acc (eq := eq) (addr := addr) (hn := hn) x.g.mem g.base g.nodes (fun m h => (half_reach hw he ha (postponing_done hw hx hd).1 m).1 h)
  refine ⟨fun f h0 hs => no_infinite_run hn a1 f h0 hs, fun x hx hd f h0 hs => no_infinite_run hn (a2 x hx hd) f h0 hs, ?_⟩
  obtain ⟨x, hx, hd, hk⟩ := exists_done_inv hn a1 (fun s => s.killed = 0) rfl postponing_unkilled
  obtain ⟨y, hy, hd', hk'⟩ := exists_done_inv hn (a2 x hx hd) (fun s => s.killed = 0) rfl absorbing_unkilled
  exact ⟨_, _, x, hx, hd, hk, y, hy, hd', hk', rfl, rfl⟩

/-- Nothing is left to be postponed. -/
def Fixed (p : Postponer V L) (g : Gr N V L) : Prop :=
  ∀ m ∈ g.nodes, ∀ l ∈ g.out m, gone p (fun m => some (g.vertex m)) m (g.out m) l = false

/-- **C40.** A graph with nothing to be postponed is left as it is. -/
theorem C40_idle (hw : g.WF) (he : IsEquality eq) (ha : Function.Injective addr) (hf : Fixed p g) {M : Mem N V L}
    {ks : List (Nat × Nat)} {err : Int} (h : Postpones p eq addr hn g M ks err) (hks : ∀ k ∈ ks, k = (0, 0)) :
    err = 0 ∧ ks.length = 1 ∧ ∀ m ∈ g.nodes, M.vertex m = some (g.vertex m) ∧ (M.out m).Perm (g.out m) := by
  have harr : ∀ m, arrivals p g m = [] := by
    intro m
    by_contra hc
    obtain ⟨f, hf'⟩ := List.exists_mem_of_ne_nil _ hc
    obtain ⟨o, h2, h3⟩ := mem_landed.1 (show f ∈ landed p g g.nodes m from hf')
    obtain ⟨l, hl, e', h5, h6, h7, h8, -⟩ := mem_created.1 h3
    have := hf o h2 l hl
    rw [gone, h6, Bool.true_and, List.any_eq_false] at this
    exact this e' h5 (by rw [h7, h8]; rfl)
  have hkept : ∀ m ∈ g.nodes, kept p g m = g.out m := fun m hm => List.filter_eq_self.2 fun l hl => by rw [hf m hm l hl]; rfl
  have key : ∀ {ch}, Iter p eq addr hn g.base (mem g) M ch 0 0 → ∀ m ∈ g.nodes, M.vertex m = some (g.vertex m) ∧ (M.out m).Perm (g.out m) := by
    intro ch hi m hm
    have := (iter_moved hw he ha hi).1
    exact ⟨this.vertex m hm, by rw [← hkept m hm]; exact this.plain m hm (harr m)⟩
  obtain ⟨hl, rfl⟩ := h
  cases hl with
  | @last _ _ ch k₁ k₂ hi _ =>
    have := hks (k₁, k₂) (by simp)
    cases this
    exact ⟨by simp, rfl, key hi⟩
  | @more _ M₁ _ k₁ k₂ ks hi _ _ =>
    have := hks (k₁, k₂) (by simp)
    cases this
    obtain ⟨m, -, h1, -⟩ := (iter_moved hw he ha hi).2.2.2.1.1 rfl
    exact absurd (harr m) h1

/-- One pass makes `R` of `g`. -/
structure Passes (p : Postponer V L) (eq : L → L → Bool) (g R : Gr N V L) : Prop where
  base : R.base = g.base
  nodes : R.nodes = g.nodes
  vertex : R.vertex = g.vertex
  moved : Moved p eq g (mem R)

/-- **C70.** An iterated postponement (`po_fix`) that isn't killed ends without an error, and yields the result of some number of passes.  If
no vertex in the given graph has repeated edges, none in the result has, and nothing is left to be postponed. -/
theorem C70_fixed (hw : g.WF) (he : IsEquality eq) (ha : Function.Injective addr) (hfix : p.fix = true) {M : Mem N V L}
    {ks : List (Nat × Nat)} {err : Int} (h : Postpones p eq addr hn g M ks err) (hks : ∀ k ∈ ks, k = (0, 0)) :
    err = 0 ∧ ∃ R : Gr N V L, M = mem R ∧ R.WF ∧ Relation.TransGen (Passes p eq) g R ∧
      ((∀ m ∈ g.nodes, (g.out m).Pairwise fun a b => ¬ Compose.Same eq a b) →
        (∀ m ∈ R.nodes, (R.out m).Pairwise fun a b => ¬ Compose.Same eq a b) ∧ Fixed p R) := by
  obtain ⟨hl, rfl⟩ := h
  have herr : (if (ks.getLast?.map (·.2)).getD 0 = 0 then (0 : Int) else Build.intKil) = 0 := by
    rcases hlast : ks.getLast? with _ | k
    · rfl
    · rw [hks k (List.mem_of_getLast? hlast)]; rfl
  refine ⟨herr, ?_⟩
  clear herr
  have hpass : ∀ {g : Gr N V L}, g.WF → ∀ {M ch}, Iter p eq addr hn g.base (mem g) M ch 0 0 → Passes p eq g (graph g M) := by
    intro g hw M ch hi
    obtain ⟨h1, h2, -⟩ := iter_moved hw he ha hi
    exact ⟨rfl, rfl, rfl, by rw [← h2]; exact h1⟩
  have hpair : ∀ {g : Gr N V L}, g.WF → ∀ {M ch}, Iter p eq addr hn g.base (mem g) M ch 0 0 →
      (∀ m ∈ g.nodes, (g.out m).Pairwise fun a b => ¬ Compose.Same eq a b) →
      ∀ m ∈ g.nodes, (M.out m).Pairwise fun a b => ¬ Compose.Same eq a b := by
    intro g hw M ch hi hd m hm
    obtain ⟨h1, -⟩ := iter_moved hw he ha hi
    by_cases hc : arrivals p g m = []
    · exact (((hd m hm).filter _).perm (h1.plain m hm hc).symm (fun {a b} h => same_symm he a b h))
    · obtain ⟨d, ht⟩ := h1.merged m hm hc
      exact ht.distinct
  generalize hM : mem g = M₀ at hl
  generalize hB : g.base = B at hl
  induction hl generalizing g with
  | @last M₀ M' ch k₁ k₂ hi hch =>
    have := hks (k₁, k₂) (by simp)
    cases this
    subst hM hB
    obtain ⟨h1, h2, h3, h4, h5⟩ := iter_moved hw he ha hi
    refine ⟨graph g M', h2, h3, .single (hpass hw hi), fun hd => ⟨hpair hw hi hd, ?_⟩⟩
    rw [hfix, Bool.true_and] at hch
    -- the edges are those kept
    have hperm : ∀ m ∈ g.nodes, (M'.out m).Perm (kept p g m) := by
      intro m hm
      by_cases hc : arrivals p g m = []
      · exact h1.plain m hm hc
      · obtain ⟨d, ht⟩ := h1.merged m hm hc
        have hdk : (kept p g m).Pairwise fun a b => ¬ Compose.Same eq a b := (hd m hm).filter _
        have hsub : ∀ f ∈ kept p g m, f ∈ M'.out m := by
          intro f hf
          obtain ⟨o, ho, hof⟩ := ht.covers f (List.mem_append_right _ hf)
          have hok := h5 m hm o ho f hf hof
          by_cases hne : o = f
          · rw [← hne]; exact ho
          · exact absurd hof (Merge.pairwise_ne (fun a b => same_symm he a b) hdk hok hf hne)
        have hnd : (kept p g m).Nodup := hdk.imp fun {a b} h hab => h (by rw [hab]; exact ⟨rfl, he.refl _⟩)
        have hle : (M'.out m).length ≤ (kept p g m).length := by
          by_contra hlt
          have := h4.2 ⟨m, hm, hc, by omega⟩
          rw [hch] at this; cases this
        exact ((hnd.subperm hsub).perm_of_length_le hle).symm
    intro m hm l hl
    have hl' : l ∈ kept p g m := (hperm m hm).mem_iff.1 hl
    have hng := (List.mem_filter.1 hl').2
    rw [Bool.not_eq_true'] at hng
    by_contra hcon
    simp only [gone, Bool.not_eq_false, Bool.and_eq_true, List.any_eq_true] at hcon
    obtain ⟨hmv, e, he', hst, hb⟩ := hcon
    have he'' : e ∈ g.out m := (List.mem_filter.1 ((hperm m hm).mem_iff.1 he')).1
    have : gone p (fun m => some (g.vertex m)) m (g.out m) l = true := by
      simp only [gone, Bool.and_eq_true, List.any_eq_true]
      exact ⟨hmv, e, he'', hst, hb⟩
    rw [this] at hng; cases hng
  | @more M₀ M₁ M' k₁ k₂ ks hi _ hl ih =>
    have := hks (k₁, k₂) (by simp)
    cases this
    subst hM hB
    obtain ⟨h1, h2, h3, h4, h5⟩ := iter_moved hw he ha hi
    obtain ⟨R, r1, r2, r3, r4⟩ := ih (g := graph g M₁) h3 (fun k hk => hks k (List.mem_cons_of_mem _ hk)) h2.symm rfl
    exact ⟨R, r1, r2, .head (hpass hw hi) r3, fun hd => r4 (hpair hw hi hd)⟩

/-! ## Kills -/

/-- **C71.** A kill can be lost.  If at least `31 * n + 1` vertices have an edge that's to be deleted (other than one that's also to be
created or is repeated), on `n` lanes, there's an execution of `cru_postponed` in which the switch is used while edges are being
postponed, but which yields a graph without an error, having all vertices, and having an edge that shouldn't be there. -/
theorem C71_kill_lost (hw : g.WF) (he : IsEquality eq) (ha : Function.Injective addr) (hfix : p.fix = false) (hn : 0 < n)
    (ms : List N) (hms : ms.Nodup) (hsub : ∀ m ∈ ms, m ∈ g.nodes) (hlarge : 31 * n + 1 ≤ ms.length)
    (hgone : ∀ m ∈ ms, ∃ l ∈ g.out m, ∀ e ∈ arrivals p g m ++ kept p g m, ¬ Compose.Same eq e l) :
    ∃ M k, Postpones p eq addr hn g M [(k, 0)] 0 ∧ k ≠ 0 ∧ (∀ m ∈ g.nodes, M.vertex m = some (g.vertex m)) ∧
      ∃ m ∈ g.nodes, ∃ l ∈ M.out m, ∀ e ∈ arrivals p g m ++ kept p g m, ¬ Compose.Same eq e l := by
  have a1 := postponing_acc (p := p) (addr := addr) (hn := hn) (mem g) g.base g.nodes (fun m h => (hw.reach m).2 h)
  have h1 : Net.Reach (postponing p addr hn) (.visit g.base) (Trav.start (mem g))
      { init (Trav.start (mem g)) with g := { (Trav.start (mem g) : Trav.Job n N (Mem N V L)) with killed := 1 } } :=
    .step (.env ()) trivial .init rfl
  obtain ⟨x, hx, hd, hfew⟩ := exists_done_from hn a1 (fun s => Few s ∧ ∀ i, (s.seen i).length ≤ 31) postponing_few _ h1
    ⟨⟨Nat.one_ne_zero, fun i _ => ⟨Nat.zero_le _, Nat.zero_le _⟩⟩, fun i => Nat.zero_le _⟩
  obtain ⟨hh, -⟩ := postponing_done hw hx hd
  have hr := half_reach hw he ha hh
  have a2 := absorbing_acc (eq := eq) (addr := addr) (hn := hn) x.g.mem g.base g.nodes (fun m h => (hr m).1 h)
  obtain ⟨y, hy, hd', hk'⟩ := exists_done_inv hn a2 (fun s => s.killed = 0) rfl absorbing_unkilled
  obtain ⟨b1, -, -⟩ := absorbing_done hr hy hd' hk'
  refine ⟨y.g.mem.1, x.g.killed, ⟨.last (ch := (List.finRange n).any y.g.mem.2) ⟨x, hx, hd, rfl, y, hy, hd', hk', rfl, rfl⟩ (by rw [hfix]; rfl), by simp⟩, hfew.1.1,
    fun m hm => by rw [(b1 m hm).2.2, hh.vertex], ?_⟩
  have : ∃ m ∈ ms, m ∉ (postponingRover p addr hn (mem g)).visited x.g := by
    by_contra hcon
    push Not at hcon
    have h2 := (hms.subperm hcon).length_le
    have h3 : ((postponingRover p addr hn (mem g)).visited x.g).length ≤ 31 * n := by
      unfold Rover.visited
      rw [List.length_flatMap]
      refine le_trans (List.sum_le_card_nsmul _ 31 ?_) (by simp [Nat.mul_comm])
      intro k hk
      obtain ⟨i, -, rfl⟩ := List.mem_map.1 hk
      exact hfew.2 i
    omega
  obtain ⟨m, hm, hmv⟩ := this
  obtain ⟨l, hl, hno⟩ := hgone m hm
  have hmg := hsub m hm
  have hlx : l ∈ x.g.mem.out m := by rw [hh.unseen m hmv]; exact hl
  refine ⟨m, hmg, ?_⟩
  rw [(b1 m hmg).1]
  by_cases hc : x.g.mem.post m = []
  · rw [absorbed, if_pos (by simpa using hc)]
    exact ⟨l, hlx, hno⟩
  · obtain ⟨d, ht⟩ := absorbed_transversal he ha x.g.mem m hc
    obtain ⟨o, ho, hol⟩ := ht.covers l (List.mem_append_right _ hlx)
    exact ⟨o, ho, fun e h2 h3 => hno e h2 ⟨h3.1.trans hol.1, he.trans _ _ _ h3.2 hol.2⟩⟩

/-- The vertices that are gone stay gone. -/
theorem iter_none {base : N} {M M' : Mem N V L} {ch : Bool} {k₁ k₂ : Nat} (h : Iter p eq addr hn base M M' ch k₁ k₂) {m : N}
    (hm : M.vertex m = none) : M'.vertex m = none := by
  obtain ⟨x, hx, hd, -, y, hy, hd', -, rfl, -⟩ := h
  have hi := Rover.inv_reach (W := postponingRover p addr hn M) (a := base) (fun i => rfl) (postponing_start p addr hn M) rfl _
    (Rover.done_bag hn hx hd)
  have hj := Rover.inv_reach (W := absorbingRover eq addr hn x.g.mem) (a := base) (fun i => rfl) (absorbing_start eq addr hn x.g.mem) rfl _
    (Rover.done_bag hn hy hd')
  have e1 : x.g.mem.vertex m = none := by rw [hi.I.1]; exact hm
  by_cases hs : m ∈ y.g.seen (Build.lane hn (addr m))
  · rcases (hj.I.1 m).2 hs with h | h
    · rw [h.2.2]; exact e1
    · exact h.2.2.1
  · rw [((hj.I.1 m).1 hs).2.2]; exact e1

theorem loop_none {base : N} {M M' : Mem N V L} {ks : List (Nat × Nat)} (h : Loop p eq addr hn base M M' ks) {m : N}
    (hm : M.vertex m = none) : M'.vertex m = none := by
  induction h with
  | last hi _ => exact iter_none hi hm
  | more hi _ _ ih => exact ih (iter_none hi hm)

theorem loop_ne {base : N} {M M' : Mem N V L} {ks : List (Nat × Nat)} (h : Loop p eq addr hn base M M' ks) : ks ≠ [] := by
  cases h <;> simp

/-- **C72.** With `po_fix`, a kill can leave a graph without some of its vertices.  If more than `31 * n` vertices on `n` lanes are next to
the base vertex and some edge is to be created there that's unlike any it has, there's an execution in which the switch is used while
edges are being attached, some vertex is freed, and the loop goes on; however it goes on, if it ends and isn't killed again, the graph is
returned without an error, and the vertex is missing. -/
theorem C72_freed (hw : g.WF) (he : IsEquality eq) (ha : Function.Injective addr) (hfix : p.fix = true) (hn : 0 < n)
    (ms : List N) (hms : ms.Nodup) (hsub : ∀ m ∈ ms, m ∈ (kept p g g.base).map (·.2)) (hlarge : 31 * n + 1 ≤ ms.length)
    (hdist : (g.out g.base).Pairwise fun a b => ¬ Compose.Same eq a b)
    (hnew : ∃ f ∈ arrivals p g g.base, ∀ e ∈ kept p g g.base, ¬ Compose.Same eq e f) :
    ∃ M₁ k, k ≠ 0 ∧ Iter p eq addr hn g.base (mem g) M₁ true 0 k ∧
      (∀ m e, e ∈ M₁.out m → m ∈ g.nodes → e ∈ arrivals p g m ++ kept p g m) ∧ (∀ m, M₁.post m ≠ [] → arrivals p g m ≠ [] ∧ m ≠ g.base) ∧
      (∀ m, Reaches (fun m => (M₁.out m).map (·.2)) g.base m → m ∈ g.nodes) ∧
      ∃ m ∈ g.nodes, M₁.vertex m = none ∧ ∀ M ks, Loop p eq addr hn g.base M₁ M ks → (∀ k ∈ ks, k = (0, 0)) →
        Postpones p eq addr hn g M ((0, k) :: ks) 0 ∧ M.vertex m = none := by
  have a1 := postponing_acc (p := p) (addr := addr) (hn := hn) (mem g) g.base g.nodes (fun m h => (hw.reach m).2 h)
  obtain ⟨x, hx, hd, hk⟩ := exists_done_inv hn a1 (fun s => s.killed = 0) rfl postponing_unkilled
  obtain ⟨hh, hv⟩ := postponing_done hw hx hd
  have hv := hv hk
  have hr := half_reach hw he ha hh
  have a2 := absorbing_acc (eq := eq) (addr := addr) (hn := hn) x.g.mem g.base g.nodes (fun m h => (hr m).1 h)
  have h1 : Net.Reach (absorbing eq addr hn) g.base (Trav.start (x.g.mem, fun _ => false))
      { init (Trav.start (x.g.mem, fun _ => false)) with
        g := { (Trav.start (x.g.mem, fun _ => false) : Trav.Job n N (Mem N V L × (Fin n → Bool))) with killed := 1 } } :=
    .step (.env ()) trivial .init rfl
  obtain ⟨y, hy, hd', hfew⟩ := exists_done_from hn a2
    (fun s => Few s ∧ ∀ i, (∃ m ∈ s.seen i, s.mem.1.vertex m = none) ∨ (s.seen i).length ≤ 31) absorbing_few _ h1
    ⟨⟨Nat.one_ne_zero, fun i _ => ⟨Nat.zero_le _, Nat.zero_le _⟩⟩, fun i => .inr (Nat.zero_le _)⟩
  have hyb := Rover.done_bag hn hy hd'
  have hj := Rover.inv_reach (W := absorbingRover eq addr hn x.g.mem) (a := g.base) (fun i => rfl) (absorbing_start eq addr hn x.g.mem) rfl _ hyb
  have hbase : g.base ∈ g.nodes := (hw.reach _).2 .refl
  have hpost : ∀ m, (x.g.mem.post m).Perm (arrivals p g m) := fun m => (hh.post m).trans (landed_perm hv m)
  have hnil : ∀ m, x.g.mem.post m = [] ↔ arrivals p g m = [] := fun m =>
    ⟨fun h => List.perm_nil.1 ((hpost m).symm.trans (.of_eq h)), fun h => List.perm_nil.1 ((hpost m).trans (.of_eq h))⟩
  have hout : ∀ m ∈ g.nodes, (x.g.mem.out m).Perm (kept p g m) := fun m hm => hh.seen m (hv.mem_iff.2 hm)
  have habs : ∀ m ∈ g.nodes, ∀ e ∈ absorbed eq addr x.g.mem m, e ∈ arrivals p g m ++ kept p g m := by
    intro m hm e hem
    rw [← ((hpost m).append (hout m hm)).mem_iff]
    by_cases hc : x.g.mem.post m = []
    · rw [absorbed, if_pos (by simpa using hc)] at hem
      exact List.mem_append_right _ hem
    · obtain ⟨d, ht⟩ := absorbed_transversal he ha x.g.mem m hc
      exact ht.perm.mem_iff.1 (List.mem_append_left _ hem)
  have hgrew : Grew eq addr x.g.mem g.base := by
    obtain ⟨f, hf, hno⟩ := hnew
    have hne : x.g.mem.post g.base ≠ [] := fun hc => by rw [(hnil _).1 hc] at hf; cases hf
    refine ⟨hne, ?_⟩
    obtain ⟨d, ht⟩ := absorbed_transversal he ha x.g.mem g.base hne
    have hdx : (x.g.mem.out g.base).Pairwise fun a b => ¬ Compose.Same eq a b :=
      (hdist.filter _).perm (hout _ hbase).symm (fun {a b} h => same_symm he a b h)
    -- choose a representative of each edge and of the new one
    choose! rep hrep using ht.covers
    have hfm : f ∈ x.g.mem.post g.base := (hpost _).mem_iff.2 hf
    have hnd : ((f :: x.g.mem.out g.base).map rep).Nodup := by
      refine List.Pairwise.map (R := fun a b => (a ∈ f :: x.g.mem.out g.base ∧ b ∈ f :: x.g.mem.out g.base) ∧ ¬ Compose.Same eq a b)
        rep ?_ ?_
      · rintro a b ⟨⟨h2, h3⟩, h4⟩ h5
        have hin : ∀ c ∈ f :: x.g.mem.out g.base, c ∈ x.g.mem.post g.base ++ x.g.mem.out g.base := by
          intro c hc
          rcases List.mem_cons.1 hc with rfl | hc
          · exact List.mem_append_left _ hfm
          · exact List.mem_append_right _ hc
        have h6 := (hrep a (hin a h2)).2
        have h7 := (hrep b (hin b h3)).2
        rw [h5] at h6
        exact h4 ⟨h6.1.symm.trans h7.1, he.trans _ _ _ (he.symm _ _ h6.2) h7.2⟩
      · refine List.Pairwise.imp_of_mem (R := fun a b => ¬ Compose.Same eq a b) (fun h2 h3 h4 => ⟨⟨h2, h3⟩, h4⟩) ?_
        refine List.pairwise_cons.2 ⟨fun e h2 => ?_, hdx⟩
        exact same_symm he _ _ (hno e ((hout _ hbase).mem_iff.1 h2))
    have hsubset : ∀ o ∈ (f :: x.g.mem.out g.base).map rep, o ∈ absorbed eq addr x.g.mem g.base := by
      intro o ho
      obtain ⟨c, hc, rfl⟩ := List.mem_map.1 ho
      rcases List.mem_cons.1 hc with rfl | hc
      · exact (hrep _ (List.mem_append_left _ hfm)).1
      · exact (hrep _ (List.mem_append_right _ hc)).1
    have := (hnd.subperm hsubset).length_le
    simp at this
    omega
  rcases absorbing_first _ hyb with ⟨hc, -⟩ | ⟨f1, f2, f3, f4, f5, f6⟩
  · exact absurd (congrArg Multiset.card hc) (by simp)
  -- someone was freed
  have hfreed : ∃ m ∈ g.nodes, y.g.mem.1.vertex m = none := by
    by_contra hcon
    have hno : ∀ i, (y.g.seen i).length ≤ 31 := by
      intro i
      rcases hfew.2 i with ⟨m, h2, h3⟩ | h2
      · exact absurd ⟨m, (hr m).1 (hj.reach i m h2), h3⟩ hcon
      · exact h2
    have hin : ∀ m ∈ ms, m ∈ (List.finRange n).flatMap y.g.seen := by
      intro m hm
      have h2 : m ∈ (absorbed eq addr x.g.mem g.base).map (·.2) := by
        rw [absorbed_next he ha]
        obtain ⟨e, h3, h4⟩ := List.mem_map.1 (hsub m hm)
        exact List.mem_map.2 ⟨e, List.mem_append_right _ ((hout _ hbase).mem_iff.2 h3), h4⟩
      rcases f1 m h2 with h3 | h3
      · exact List.mem_flatMap.2 ⟨_, List.mem_finRange _, h3⟩
      · simp at h3
    have h2 := (hms.subperm hin).length_le
    have h3 : ((List.finRange n).flatMap y.g.seen).length ≤ 31 * n := by
      rw [List.length_flatMap]
      refine le_trans (List.sum_le_card_nsmul _ 31 ?_) (by simp [Nat.mul_comm])
      intro k hk
      obtain ⟨i, -, rfl⟩ := List.mem_map.1 hk
      exact hno i
    omega
  have hM1 : ∀ m, (y.g.mem.1.out m = absorbed eq addr x.g.mem m ∧ y.g.mem.1.post m = []) ∨
      (y.g.mem.1.out m = x.g.mem.out m ∧ y.g.mem.1.post m = x.g.mem.post m) := by
    intro m
    by_cases hs : m ∈ y.g.seen (Build.lane hn (addr m))
    · rcases (hj.I.1 m).2 hs with h | h
      · exact .inl ⟨h.1, h.2.1⟩
      · exact .inr ⟨h.1, h.2.1⟩
    · exact .inr ⟨((hj.I.1 m).1 hs).1, ((hj.I.1 m).1 hs).2.1⟩
  have hedges : ∀ m e, e ∈ y.g.mem.1.out m → m ∈ g.nodes → e ∈ arrivals p g m ++ kept p g m := by
    intro m e hem hm
    rcases hM1 m with h | h
    · rw [h.1] at hem; exact habs m hm e hem
    · rw [h.1] at hem; exact List.mem_append_right _ ((hout m hm).mem_iff.1 hem)
  have hit : Iter p eq addr hn g.base (mem g) y.g.mem.1 true 0 y.g.killed :=
    ⟨x, hx, hd, hk, y, hy, hd', rfl, rfl, (List.any_eq_true.2 ⟨_, List.mem_finRange _, f2 hgrew⟩).symm⟩
  refine ⟨y.g.mem.1, y.g.killed, hfew.1.1, hit, hedges, ?_, ?_, ?_⟩
  · intro m hm
    rcases hM1 m with h | h
    · exact absurd h.2 hm
    · refine ⟨fun hc => hm (by rw [h.2]; exact (hnil m).2 hc), ?_⟩
      rintro rfl
      exact hm f5
  · intro m hm
    induction hm with
    | refl => exact hbase
    | @tail a b _ hc ih =>
      obtain ⟨e, h2, rfl⟩ := List.mem_map.1 (show b ∈ (y.g.mem.1.out a).map (·.2) from hc)
      rcases List.mem_append.1 (hedges a e h2 ih) with h3 | h3
      · obtain ⟨o, h4, h5⟩ := mem_landed.1 (show e ∈ landed p g g.nodes a from h3)
        obtain ⟨l, hl, e', -, -, -, -, h6⟩ := mem_created.1 h5
        cases h6
        exact next_mem (e := l) hw h4 hl
      · exact next_mem hw ih (List.mem_filter.1 h3).1
  · obtain ⟨m, hm, hmv⟩ := hfreed
    refine ⟨m, hm, hmv, fun M ks hl hks => ⟨⟨.more hit hfix hl, ?_⟩, loop_none hl hmv⟩⟩
    rcases ks with _ | ⟨k₀, ks⟩
    · exact absurd rfl (loop_ne hl)
    · rw [List.getLast?_cons_cons]
      rcases hlast : (k₀ :: ks).getLast? with _ | k
      · rfl
      · rw [hks k (List.mem_of_getLast? hlast)]; rfl

/-! ## Demonstrations -/

/-- If nothing is postponable and no edges are waiting to be attached, an iteration changes nothing. -/
theorem iter_still {base : N} {nodes : List N} {M : Mem N V L} (hreach : ∀ m, Reaches (fun m => (M.out m).map (·.2)) base m → m ∈ nodes)
    (hpost : ∀ m, M.post m = []) (hmv : ∀ m ∈ nodes, ∀ e ∈ M.out m, movable p M.vertex m e = false) :
    ∃ M', Iter p eq addr hn base M M' false 0 0 := by
  have a1 := postponing_acc (p := p) (addr := addr) (hn := hn) M base nodes hreach
  obtain ⟨x, hx, hd, hk⟩ := exists_done_inv hn a1 (fun s => s.killed = 0) rfl postponing_unkilled
  have hxb := Rover.done_bag hn hx hd
  have hi := Rover.inv_reach (W := postponingRover p addr hn M) (a := base) (fun i => rfl) (postponing_start p addr hn M) rfl _ hxb
  have hp : ∀ m, x.g.mem.post m = [] := by
    intro m
    have h := post_inv p addr hn M m base (hpost m) _ hxb
    rw [Multiset.map_zero, Multiset.sum_zero, add_zero] at h
    have h0 : (((postponingRover p addr hn M).visited x.g).map (sends p M m)).sum = 0 := by
      refine List.sum_eq_zero fun a hma => ?_
      obtain ⟨o, ho, rfl⟩ := List.mem_map.1 hma
      obtain ⟨i, hoi⟩ := Rover.mem_visited.1 ho
      have hon := hreach o (hi.reach i o hoi)
      have : created p M.vertex o (M.out o) = [] := by
        rw [created, List.filter_eq_nil_iff.2 fun e he => by rw [hmv o hon e he]; decide]; rfl
      have h2 := postpone_sent p M.vertex o (M.out o)
      rw [this] at h2
      simp only [sends, List.perm_nil.1 h2]
      rfl
    rw [h0] at h
    exact Multiset.coe_eq_zero _ |>.1 h
  have hab : ∀ m, absorbed eq addr x.g.mem m = x.g.mem.out m := fun m => by rw [absorbed, hp m]; rfl
  have hsub : ∀ m, m ∈ nodes → ∀ e ∈ x.g.mem.out m, e ∈ M.out m := by
    intro m hm e he
    by_cases hs : m ∈ x.g.seen (Build.lane hn (addr m))
    · rw [(hi.I.2 m).1 hs] at he
      exact (List.mem_filter.1 ((postpone_kept p M.vertex m (M.out m)).mem_iff.1 he)).1
    · rw [(hi.I.2 m).2 hs] at he; exact he
  have a2 := absorbing_acc (eq := eq) (addr := addr) (hn := hn) x.g.mem base nodes (fun m hm => by
    have : Reaches (fun m => (M.out m).map (·.2)) base m := by
      induction hm with
      | refl => exact .refl
      | @tail a b _ hc ih =>
        obtain ⟨e, h2, rfl⟩ := List.mem_map.1 (show b ∈ (absorbed eq addr x.g.mem a).map (·.2) from hc)
        rw [hab] at h2
        exact ih.tail (List.mem_map.2 ⟨e, hsub a (hreach a ih) e h2, rfl⟩)
    exact hreach m this)
  obtain ⟨y, hy, hd', hk'⟩ := exists_done_inv hn a2 (fun s => s.killed = 0) rfl absorbing_unkilled
  have hj := Rover.inv_reach (W := absorbingRover eq addr hn x.g.mem) (a := base) (fun i => rfl) (absorbing_start eq addr hn x.g.mem) rfl _
    (Rover.done_bag hn hy hd')
  refine ⟨y.g.mem.1, x, hx, hd, hk, y, hy, hd', hk', rfl, ?_⟩
  symm
  rw [List.any_eq_false]
  intro i _ hc
  obtain ⟨m, -, hg⟩ := hj.I.2.1 i hc
  exact hg.1 (hp m)

/-- Edges labelled one are postponable, and may be postponed until after any others, which labels them `l`. -/
def late (l : Nat) (fix : Bool) : Postponer Nat Nat := ⟨fun _ a _ => decide (a = 1), fun _ _ => true, fun _ _ => l, fix⟩

/-- An edge to be postponed twice, or once if the edges labelled zero from the second vertex are twins. -/
def hop (twins : Bool) : Gr Nat Nat Nat where
  nodes := List.range 4
  base := 0
  vertex := id
  out m := if m = 0 then [(1, 2), (0, 1)] else if m = 1 then (if twins then [(0, 3), (0, 3)] else [(0, 3)]) else []
  inn _ := []

theorem hop_wf (t : Bool) : (hop t).WF := by
  cases t <;> exact wf_range (k := 4) rfl rfl (by omega) (by decide) (by decide)

/-- Non-vacuity of C40: the edge from the first vertex to the third is deleted, and there's a new one from the second. -/
example : arrivals (late 1 false) (hop false) 1 = [(1, 2)] ∧ kept (late 1 false) (hop false) 0 = [(0, 1)] ∧
    kept (late 1 false) (hop false) 1 = [(0, 3)] ∧
    ∃ M ks err, Postpones (late 1 false) Compose.equals id (show 0 < 3 by omega) (hop false) M ks err ∧ ∀ k ∈ ks, k = (0, 0) := by
  refine ⟨by decide, by decide, by decide, ?_⟩
  obtain ⟨M, ch, h⟩ := (C40_terminates (hop_wf false) Compose.equals_equality Function.injective_id (late 1 false) (show 0 < 3 by omega)).2.2
  exact ⟨M, [(0, 0)], 0, ⟨.last h rfl, rfl⟩, by simp⟩

/-- Non-vacuity of C40_idle. -/
example : Fixed (late 2 true) (hop false) = False ∧ Fixed (late 1 true) (Compose.path 5) := by
  refine ⟨?_, ?_⟩
  · rw [eq_iff_iff, iff_false]
    intro h
    exact absurd (h 0 (by decide) (1, 2) (by decide)) (by decide)
  · unfold Fixed; decide

/-- The traversals of a pass on one lane. -/
def passX (p : Postponer Nat Nat) (M : Mem Nat Nat Nat) : State 1 (Pkt Nat Nat) (Trav.Job 1 Nat (Mem Nat Nat Nat)) :=
  greedy (postponing p id Nat.one_pos) (.visit 0) 100 (init (Trav.start M))

def passY (p : Postponer Nat Nat) (M : Mem Nat Nat Nat) : State 1 Nat (Trav.Job 1 Nat (Mem Nat Nat Nat × (Fin 1 → Bool))) :=
  greedy (absorbing Compose.equals id Nat.one_pos) 0 100 (init (Trav.start ((passX p M).g.mem, fun _ => false)))

def ended (p : Postponer Nat Nat) (M : Mem Nat Nat Nat) (ch : Bool) : Bool :=
  (match (passX p M).main with | .done => true | _ => false) && (match (passY p M).main with | .done => true | _ => false) &&
    decide ((passX p M).g.killed = 0) && decide ((passY p M).g.killed = 0) && ((passY p M).g.mem.2 0 == ch)

theorem pass_iter (p : Postponer Nat Nat) (M : Mem Nat Nat Nat) (ch : Bool) (h : ended p M ch = true) :
    Iter p Compose.equals id Nat.one_pos 0 M (passY p M).g.mem.1 ch 0 0 := by
  have hx : Net.Reach (postponing p id Nat.one_pos) (.visit 0) (Trav.start M) (passX p M) := greedy_reach _ _ .init
  have hy : Net.Reach (absorbing Compose.equals id Nat.one_pos) 0 (Trav.start ((passX p M).g.mem, fun _ => false)) (passY p M) :=
    greedy_reach _ _ .init
  unfold ended at h
  generalize passX p M = x at *
  generalize passY p M = y at *
  simp only [Bool.and_eq_true, decide_eq_true_eq, beq_iff_eq] at h
  obtain ⟨⟨⟨⟨h1, h2⟩, h3⟩, h4⟩, h5⟩ := h
  refine ⟨x, hx, ?_, h3, y, hy, ?_, h4, rfl, ?_⟩
  · split at h1
    · assumption
    · cases h1
  · split at h2
    · assumption
    · cases h2
  · rw [← h5]
    simp [List.finRange_succ]

/-- Non-vacuity of C70: the edge is postponed twice, in three passes, and ends up alone at the last vertex. -/
example : ∃ M, Postpones (late 1 true) Compose.equals id Nat.one_pos (hop false) M [(0, 0), (0, 0), (0, 0)] 0 ∧ M.out 3 = [(1, 2)] :=
  ⟨_, ⟨.more (pass_iter _ (mem (hop false)) true (by decide)) rfl
    (.more (pass_iter _ _ true (by decide)) rfl (.last (pass_iter _ _ false (by decide)) rfl)), rfl⟩, by decide⟩

theorem same_equals {a b : Nat × Nat} (h : Compose.Same Compose.equals a b) : a = b := by
  obtain ⟨h1, h2⟩ := h
  simp only [Compose.equals, decide_eq_true_eq] at h2
  exact Prod.ext h2 h1

/-- **C70.** Without the condition on repeated edges, the iteration may stop too early: in this graph, it always leaves an edge to be
postponed. -/
theorem C70_stops_early {hn : 0 < n} {M : Mem Nat Nat Nat} {ks : List (Nat × Nat)} {err : Int}
    (h : Postpones (late 1 true) Compose.equals id hn (hop true) M ks err) (hks : ∀ k ∈ ks, k = (0, 0)) :
    err = 0 ∧ ks.length = 1 ∧ ¬ Fixed (late 1 true) (graph (hop true) M) := by
  have harr : arrivals (late 1 true) (hop true) 1 = [(1, 2)] := by decide
  have hkept : kept (late 1 true) (hop true) 1 = [(0, 3), (0, 3)] := by decide
  obtain ⟨hl, rfl⟩ := h
  cases hl with
  | @last _ _ ch k₁ k₂ hi _ =>
    have := hks (k₁, k₂) (by simp)
    cases this
    refine ⟨by simp, rfl, fun hf => ?_⟩
    have hm := (iter_moved (hop_wf true) Compose.equals_equality Function.injective_id hi).1
    obtain ⟨d, ht⟩ := hm.merged 1 (by decide) (by rw [harr]; simp)
    rw [harr, hkept] at ht
    obtain ⟨o, ho, hs⟩ := ht.covers (1, 2) (by simp)
    obtain ⟨o', ho', hs'⟩ := ht.covers (0, 3) (by simp)
    rw [same_equals hs] at ho
    rw [same_equals hs'] at ho'
    have := hf 1 (show 1 ∈ List.range 4 by decide) (1, 2) ho
    have h2 : gone (late 1 true) (fun m => some ((graph (hop true) M).vertex m)) 1 ((graph (hop true) M).out 1) (1, 2) = true := by
      simp only [gone, Bool.and_eq_true, List.any_eq_true]
      exact ⟨by simp [movable, late], (0, 3), ho', by simp [stationary, late], rfl⟩
    rw [this] at h2; cases h2
  | @more _ M₁ _ k₁ k₂ ks hi _ _ =>
    exfalso
    have := hks (k₁, k₂) (by simp)
    cases this
    obtain ⟨hm, -, -, h4, -⟩ := iter_moved (hop_wf true) Compose.equals_equality Function.injective_id hi
    obtain ⟨m, h1, h2, h3⟩ := h4.1 rfl
    have hm1 : m = 1 := by
      have : ∀ m ∈ (hop true).nodes, arrivals (late 1 true) (hop true) m ≠ [] → m = 1 := by decide
      exact this m h1 h2
    subst hm1
    obtain ⟨d, ht⟩ := hm.merged 1 h1 h2
    rw [hkept] at h3
    rw [harr, hkept] at ht
    have hnd : (M₁.out 1).Nodup := ht.distinct.imp fun {a b} h hab => h (by rw [hab]; exact ⟨rfl, Compose.equals_equality.refl _⟩)
    have hsub : ∀ e ∈ M₁.out 1, e ∈ [(1, 2), (0, 3)] := by
      intro e he
      have := ht.perm.mem_iff.1 (List.mem_append_left _ he)
      simp only [List.mem_append, List.mem_cons, List.not_mem_nil, or_false] at this ⊢
      tauto
    have := (hnd.subperm hsub).length_le
    simp at this h3
    omega

/-- Non-vacuity: there is such an execution. -/
example : ∃ M ks err, Postpones (late 1 true) Compose.equals id (show 0 < 3 by omega) (hop true) M ks err ∧ ∀ k ∈ ks, k = (0, 0) := by
  obtain ⟨M, ch, h⟩ := (C40_terminates (hop_wf true) Compose.equals_equality Function.injective_id (late 1 true) (show 0 < 3 by omega)).2.2
  cases ch with
  | false => exact ⟨M, [(0, 0)], 0, ⟨.last h rfl, rfl⟩, by simp⟩
  | true =>
    -- impossible, by the same argument
    exfalso
    obtain ⟨hm, -, hw', h4, -⟩ := iter_moved (hop_wf true) Compose.equals_equality Function.injective_id h
    obtain ⟨m, h1, h2, h3⟩ := h4.1 rfl
    have hm1 : m = 1 := by
      have : ∀ m ∈ (hop true).nodes, arrivals (late 1 true) (hop true) m ≠ [] → m = 1 := by decide
      exact this m h1 h2
    subst hm1
    obtain ⟨d, ht⟩ := hm.merged 1 h1 h2
    have hnd : (M.out 1).Nodup := ht.distinct.imp fun {a b} h hab => h (by rw [hab]; exact ⟨rfl, Compose.equals_equality.refl _⟩)
    have hsub : ∀ e ∈ M.out 1, e ∈ [(1, 2), (0, 3)] := by
      intro e he
      have := ht.perm.mem_iff.1 (List.mem_append_left _ he)
      rw [show arrivals (late 1 true) (hop true) 1 = [(1, 2)] by decide, show kept (late 1 true) (hop true) 1 = [(0, 3), (0, 3)] by decide] at this
      simp only [List.mem_append, List.mem_cons, List.not_mem_nil, or_false] at this ⊢
      tauto
    have := (hnd.subperm hsub).length_le
    rw [show kept (late 1 true) (hop true) 1 = [(0, 3), (0, 3)] by decide] at h3
    simp at this h3
    omega

/-- A path with shortcuts labelled one. -/
def ladder (k : Nat) : Gr Nat Nat Nat where
  nodes := List.range (k + 2)
  base := 0
  vertex := id
  out m := if m < k then [(0, m + 1), (1, m + 2)] else if m = k then [(0, m + 1)] else []
  inn _ := []

theorem ladder_wf (k : Nat) : (ladder k).WF := by
  refine ⟨List.nodup_range, fun m => ⟨fun hm => ?_, fun hm => ?_⟩⟩
  · induction m with
    | zero => exact .refl
    | succ m ih =>
      have : m + 1 < k + 2 := List.mem_range.1 hm
      refine (ih (List.mem_range.2 (by omega))).tail (List.mem_map.2 ⟨(0, m + 1), ?_, rfl⟩)
      show (0, m + 1) ∈ (ladder k).out m
      simp only [ladder]
      split_ifs with h1 h2
      · simp
      · simp
      · omega
  · induction hm with
    | refl => exact List.mem_range.2 (by show 0 < k + 2; omega)
    | @tail a b _ hc ih =>
      obtain ⟨e, h1, rfl⟩ := List.mem_map.1 hc
      have h1 : e ∈ (ladder k).out a := h1
      simp only [ladder] at h1
      refine List.mem_range.2 ?_
      split_ifs at h1
      · simp at h1; rcases h1 with rfl | rfl <;> simp <;> omega
      · simp at h1; subst h1; simp; omega
      · cases h1

/-- Non-vacuity of C71: a kill is lost in a path of 42 vertices, on one lane, where 40 shortcuts should be deleted. -/
example : ∃ M k, Postpones (late 2 false) Compose.equals id Nat.one_pos (ladder 40) M [(k, 0)] 0 ∧ k ≠ 0 ∧
    (∀ m ∈ (ladder 40).nodes, M.vertex m = some m) ∧
    ∃ m ∈ (ladder 40).nodes, ∃ l ∈ M.out m, ∀ e ∈ arrivals (late 2 false) (ladder 40) m ++ kept (late 2 false) (ladder 40) m,
      ¬ Compose.Same Compose.equals e l := by
  refine C71_kill_lost (ladder_wf 40) Compose.equals_equality Function.injective_id rfl Nat.one_pos (List.range 40) List.nodup_range
    (fun m hm => ?_) (by simp) (fun m hm => ?_)
  · rw [List.mem_range] at hm
    exact List.mem_range.2 (by omega)
  · rw [List.mem_range] at hm
    have hout : (ladder 40).out m = [(0, m + 1), (1, m + 2)] := by simp only [ladder]; rw [if_pos hm]
    refine ⟨(1, m + 2), by rw [hout]; simp, fun e he hs => ?_⟩
    have := same_equals hs
    subst this
    rcases List.mem_append.1 he with he | he
    · obtain ⟨o, -, h2⟩ := mem_landed.1 (show _ ∈ landed (late 2 false) (ladder 40) (ladder 40).nodes m from he)
      obtain ⟨l, -, e', -, -, -, -, h3⟩ := mem_created.1 h2
      simp [late] at h3
    · have h2 := (List.mem_filter.1 he).2
      rw [hout] at h2
      simp [gone, movable, stationary, late] at h2

/-- Many edges from the base vertex, and one of the others has an edge back to it and an edge labelled one. -/
def star (k : Nat) : Gr Nat Nat Nat where
  nodes := List.range (k + 3)
  base := 0
  vertex := id
  out m := if m = 0 then (List.range (k + 2)).map fun j => (0, j + 1) else if m = 1 then [(0, 0), (1, 2)] else []
  inn _ := []

theorem star_wf (k : Nat) : (star k).WF := by
  refine ⟨List.nodup_range, fun m => ⟨fun hm => ?_, fun hm => ?_⟩⟩
  · have hm : m < k + 3 := List.mem_range.1 hm
    rcases m with _ | m
    · exact .refl
    · refine .single (List.mem_map.2 ⟨(0, m + 1), ?_, rfl⟩)
      show (0, m + 1) ∈ (star k).out 0
      simp only [star, if_pos]
      exact List.mem_map.2 ⟨m, List.mem_range.2 (by omega), rfl⟩
  · induction hm with
    | refl => exact List.mem_range.2 (by show 0 < k + 3; omega)
    | @tail a b _ hc ih =>
      obtain ⟨e, h1, rfl⟩ := List.mem_map.1 hc
      have h1 : e ∈ (star k).out a := h1
      simp only [star] at h1
      refine List.mem_range.2 ?_
      split_ifs at h1
      · obtain ⟨j, h2, rfl⟩ := List.mem_map.1 h1
        rw [List.mem_range] at h2
        simp; omega
      · simp at h1; rcases h1 with rfl | rfl <;> simp
      · cases h1

theorem star_movable {k m : Nat} {v : Nat → Option Nat} {l : Nat × Nat} (hl : l ∈ (star k).out m) (h : movable (late 2 true) v m l = true) :
    m = 1 ∧ l = (1, 2) := by
  simp only [star] at hl
  split_ifs at hl with h1 h2
  · obtain ⟨j, -, rfl⟩ := List.mem_map.1 hl
    simp [movable, late] at h
  · simp at hl
    rcases hl with rfl | rfl
    · simp [movable, late] at h
    · exact ⟨h2, rfl⟩
  · cases hl

theorem star_arrivals {k m : Nat} {f : Nat × Nat} : f ∈ arrivals (late 2 true) (star k) m ↔ m = 0 ∧ f = (2, 2) := by
  rw [show arrivals (late 2 true) (star k) m = landed (late 2 true) (star k) (star k).nodes m from rfl, mem_landed]
  constructor
  · rintro ⟨o, -, h⟩
    obtain ⟨l, hl, e, he, h1, h2, -, h3⟩ := mem_created.1 h
    obtain ⟨rfl, rfl⟩ := star_movable hl h1
    simp only [star, Nat.one_ne_zero, if_false, if_true, List.mem_cons, List.not_mem_nil, or_false] at he
    rcases he with rfl | rfl
    · simp only [late, Prod.mk.injEq] at h3
      exact h3
    · simp [stationary, late] at h2
  · rintro ⟨rfl, rfl⟩
    refine ⟨1, List.mem_range.2 (by omega), mem_created.2 ⟨(1, 2), by simp [star], (0, 0), by simp [star], ?_, ?_, rfl, rfl⟩⟩
    · simp [movable, late]
    · simp [stationary, late]

theorem star_kept {k m : Nat} {e : Nat × Nat} (h : e ∈ kept (late 2 true) (star k) m) : e ∈ (star k).out m ∧ e.1 = 0 := by
  obtain ⟨h1, h2⟩ := List.mem_filter.1 h
  refine ⟨h1, ?_⟩
  have h3 := h1
  simp only [star] at h1
  split_ifs at h1 with c1 c2
  · obtain ⟨j, -, rfl⟩ := List.mem_map.1 h1; rfl
  · subst c2
    simp at h1
    rcases h1 with rfl | rfl
    · rfl
    · simp [star, gone, movable, stationary, late] at h2
  · cases h1

/-- Non-vacuity of C72: on one lane, a graph is returned in which a vertex is missing. -/
example : ∃ M k m, k ≠ 0 ∧ Postpones (late 2 true) Compose.equals id Nat.one_pos (star 40) M [(0, k), (0, 0)] 0 ∧ m ∈ (star 40).nodes ∧
    M.vertex m = none := by
  have hk0 : ∀ j < 42, (0, j + 1) ∈ kept (late 2 true) (star 40) 0 := by
    intro j hj
    have hin : (0, j + 1) ∈ (star 40).out 0 := by
      simp only [star, if_pos]
      exact List.mem_map.2 ⟨j, List.mem_range.2 hj, rfl⟩
    exact stationary_kept hin (by simp [stationary, late, star])
  obtain ⟨M₁, k, hk, hi, h1, h2, h3, m, hm, -, h4⟩ := C72_freed (p := late 2 true) (star_wf 40) Compose.equals_equality Function.injective_id rfl Nat.one_pos
    ((List.range 42).map (· + 1)) (List.Nodup.map (fun a b h => by simpa using h) List.nodup_range) (by
      intro m hm
      obtain ⟨j, hj, rfl⟩ := List.mem_map.1 hm
      exact List.mem_map.2 ⟨(0, j + 1), hk0 j (List.mem_range.1 hj), rfl⟩) (by simp) (by
      show ((star 40).out 0).Pairwise _
      simp only [star, if_pos]
      refine List.Pairwise.map _ (R := fun a b => a ≠ b) ?_ List.nodup_range
      intro a b hab hs
      have := same_equals hs
      simp at this
      exact hab this) ⟨(2, 2), star_arrivals.2 ⟨rfl, rfl⟩, by
        intro e he hs
        have := (star_kept he).2
        rw [same_equals hs] at this
        simp at this⟩
  obtain ⟨M, hM⟩ := iter_still (p := late 2 true) (eq := Compose.equals) (addr := id) (hn := Nat.one_pos) (base := (star 40).base)
    (nodes := (star 40).nodes) (M := M₁) h3 (by
      intro m
      by_contra hc
      obtain ⟨h5, h6⟩ := h2 m hc
      obtain ⟨f, hf⟩ := List.exists_mem_of_ne_nil _ h5
      exact h6 (star_arrivals.1 hf).1) (by
      intro m hm e he
      rcases List.mem_append.1 (h1 m e he hm) with h5 | h5
      · rw [(star_arrivals.1 h5).2]; simp [movable, late]
      · have := (star_kept h5).2
        simp [movable, late, this])
  have hl : Loop (late 2 true) Compose.equals id Nat.one_pos (star 40).base M₁ M [(0, 0)] := .last hM rfl
  exact ⟨M, k, m, hk, (h4 M _ hl (by simp)).1, hm, (h4 M _ hl (by simp)).2⟩

end Cru.Postpone
