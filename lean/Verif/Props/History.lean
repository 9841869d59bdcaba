import Verif.Model.History
import Verif.Spec.History
import Verif.Props.Built
import Verif.Props.Fab
import Verif.Props.Cross
import Verif.Props.Filter
import Verif.Props.MutateFull
import Verif.Props.Merge
import Verif.Props.Compose
import Verif.Props.Postpone
import Verif.Props.Split
import Verif.Props.Stretch
import Verif.Props.Spread
import Verif.Props.Dedup
import Verif.Props.Duplex
import Verif.Props.Free
import Verif.Props.Locate

/-! # C111: graphs after any history -/

namespace Cru.History

variable {N V L : Type}

theorem exact_full [DecidableEq N] [DecidableEq L] {g : Gr N V L} (hw : g.WF) (h : Duplex.Exact g g.inn) : Mutate.Full g := by
  refine ⟨hw, fun a ha b hb l => ?_, fun b hb e he => ?_⟩
  · have := (h b hb).count_eq (l, a)
    rw [Duplex.count_reversed _ _ hw.nodup, if_pos ha] at this
    exact this.symm
  · rw [(h b hb).mem_iff, Duplex.reversed] at he
    obtain ⟨a, ha, he⟩ := List.mem_flatMap.1 he
    obtain ⟨f, -, rfl⟩ := List.mem_map.1 he
    exact ha

theorem full_exact [DecidableEq N] [DecidableEq L] {g : Gr N V L} (h : Mutate.Full g) : Duplex.Exact g g.inn := by
  intro m hm
  refine List.perm_iff_count.2 fun e => ?_
  obtain ⟨l, a⟩ := e
  rw [Duplex.count_reversed _ _ h.wf.nodup]
  split_ifs with ha
  · exact (h.duplex a ha m hm l).symm
  · exact List.count_eq_zero.2 fun hc => ha (h.inn m hm _ hc)

theorem Paired.of_nil {g : Gr N V L} (h : ∀ m ∈ g.nodes, g.inn m = []) : Paired g := ⟨.inl h⟩

theorem Paired.of_exact [i : DecidableEq N] {g : Gr N V L} (h : Duplex.Exact g g.inn) : Paired g := by
  refine ⟨fun {j} => ?_⟩
  rw [Subsingleton.elim j i]
  exact .inr h

theorem wf_inn {g : Gr N V L} (h : g.WF) (inn : N → List (L × N)) : ({ g with inn := inn } : Gr N V L).WF := ⟨h.nodup, h.reach⟩

theorem halved_nil {n : Nat} [DecidableEq N] {addr : N → Nat} {hn : 0 < n} {g : Gr N V L} {inn : N → List (L × N)} (hw : g.WF) (hp : Paired g)
    (h : Halved addr hn g inn) : ∀ m ∈ g.nodes, inn m = [] := by
  unfold Halved at h
  split_ifs at h with c
  · subst h
    rcases hp.ends with h0 | h0
    · exact h0
    · exact (Duplex.C31_recognized hw).2 h0 c
  · exact (Duplex.C31_removed hw h).1

theorem prepared_exact {n : Nat} [DecidableEq N] {addr : N → Nat} {hn : 0 < n} {g : Gr N V L} {inn : N → List (L × N)} (hw : g.WF) (hp : Paired g)
    (h : Duplex.Prepared true addr hn g inn 0) : Duplex.Exact ({ g with inn := inn } : Gr N V L) inn :=
  Duplex.C31_prepared hw hp.ends h

/-- The result of filtering is well formed, in any case. -/
theorem filters_wf {n : Nat} [DecidableEq N] [DecidableEq L] {g R : Gr N V L} {u : Filter.Filter V L} {backwards : Bool} {initial : N}
    {addr : N → Nat} {hn : 0 < n} {k₁ k₂ : Nat} (hw : g.WF) (h : Filter.Filters u g backwards initial addr hn k₁ k₂ 0 (.ok (some R))) :
    R = g ∨ R.WF ∧ ∀ m, R.inn m = [] := by
  unfold Filter.Filters at h
  dsimp only at h
  split at h
  · simp only [Except.ok.injEq, Option.some.injEq] at h
    exact .inl h.2.2.2
  · split at h
    · obtain ⟨-, -, -, h⟩ := h
      split at h <;> cases h
    · right
      obtain ⟨del, e, -, y, -, -, -, h⟩ := h
      split at h
      · cases h.2
      · split at h
        · cases h.2
        · obtain ⟨z, hz, hdz, hkz, ⟨h1, -⟩ | ⟨-, h2⟩⟩ := h
          · exact absurd rfl h1
          · simp only [Except.ok.injEq, Option.some.injEq] at h2
            subst h2
            have := Filter.pruned hz hdz hkz
            exact ⟨⟨this.nodup, fun m => this.mem m⟩, fun _ => rfl⟩

theorem moved_wf {M : Type} {f : N → M} {old : M → N} (ho : ∀ m, old (f m) = m) {g : Gr N V L} (hw : g.WF) : (moved f old g).WF := by
  have hinj : Function.Injective f := fun a b h => by rw [← ho a, h, ho]
  refine ⟨hw.nodup.map hinj, fun m => ?_⟩
  constructor
  · intro hm
    obtain ⟨a, ha, rfl⟩ := List.mem_map.1 hm
    have := (hw.reach a).1 ha
    clear ha hm
    induction this with
    | refl => exact .refl
    | @tail b c _ hs ih =>
      refine ih.tail ?_
      simp only [Gr.next, Bool.false_eq_true, if_false, moved, ho, List.map_map] at hs ⊢
      obtain ⟨e, he, rfl⟩ := List.mem_map.1 hs
      exact List.mem_map.2 ⟨e, he, rfl⟩
  · intro hm
    induction hm with
    | refl => exact List.mem_map_of_mem ((hw.reach _).2 .refl)
    | @tail b c _ hs ih =>
      obtain ⟨a, ha, rfl⟩ := List.mem_map.1 ih
      simp only [Gr.next, Bool.false_eq_true, if_false, moved, ho, List.map_map] at hs
      obtain ⟨e, he, rfl⟩ := List.mem_map.1 hs
      refine List.mem_map_of_mem ((hw.reach _).2 (((hw.reach _).1 ha).tail ?_))
      simp only [Gr.next, Bool.false_eq_true, if_false]
      exact List.mem_map.2 ⟨e, he, rfl⟩

theorem moved_paired {M : Type} {f : N → M} {old : M → N} (ho : ∀ m, old (f m) = m) {g : Gr N V L} (h : Paired g) : Paired (moved f old g) := by
  classical
  have hinj : Function.Injective f := fun a b h => by rw [← ho a, h, ho]
  rcases h.ends with h | h
  · refine .of_nil fun m hm => ?_
    obtain ⟨a, ha, rfl⟩ := List.mem_map.1 hm
    simp only [moved, ho, h a ha, List.map_nil]
  · refine .of_exact fun m hm => ?_
    obtain ⟨a, ha, rfl⟩ := List.mem_map.1 hm
    have := (h a ha).map fun e : L × N => (e.1, f e.2)
    simp only [moved, ho]
    refine this.trans (.of_eq ?_)
    simp only [Duplex.reversed, List.map_flatMap, List.flatMap_map, ho, List.map_map, List.filter_map]
    congr; funext b
    congr 1
    · congr 1; funext e; simp [hinj.eq_iff]

theorem composes_wf {n : Nat} {P : Type} [DecidableEq N] [DecidableEq L] {g R : Gr N V L} {c : Compose.Composer P L}
    {mapped : Gr N V L → N → P × P} {eq : L → L → Bool} {addr : N → Nat} {hn : 0 < n} (he : IsEquality eq) (ha : Function.Injective addr)
    (h : Compose.Composes c mapped eq addr hn g R) : g.WF → R.WF ∧ ∀ m ∈ R.nodes, m ∈ g.nodes := by
  induction h with
  | last h _ => intro hw; obtain ⟨-, -, h1, h2⟩ := Compose.pass_basic hw he ha h; exact ⟨h1, h2⟩
  | more h _ _ ih =>
    intro hw
    obtain ⟨-, -, h1, h2⟩ := Compose.pass_basic hw he ha h
    exact ⟨(ih h1).1, fun m hm => h2 m ((ih h1).2 m hm)⟩

theorem postpones_wf {n : Nat} [DecidableEq N] {g : Gr N V L} {p : Postpone.Postponer V L} {eq : L → L → Bool} {addr : N → Nat} {hn : 0 < n}
    {M : Postpone.Mem N V L} {ks : List (Nat × Nat)} {err : Int} (hw : g.WF) (he : IsEquality eq) (ha : Function.Injective addr)
    (h : Postpone.Postpones p eq addr hn g M ks err) (hks : ∀ k ∈ ks, k = (0, 0)) :
    ({ g with out := M.out } : Gr N V L).WF := by
  obtain ⟨hl, -⟩ := h
  generalize hM : Postpone.mem g = M₀ at hl
  generalize hB : g.base = B at hl
  induction hl generalizing g with
  | @last M₀ M' ch k₁ k₂ hi hch =>
    cases hks (k₁, k₂) (by simp)
    subst hM hB
    obtain ⟨-, -, h3, -⟩ := Postpone.iter_moved hw he ha hi
    exact ⟨h3.nodup, h3.reach⟩
  | @more M₀ M₁ M' k₁ k₂ ks hi _ _ ih =>
    cases hks (k₁, k₂) (by simp)
    subst hM hB
    obtain ⟨-, h2, h3, -⟩ := Postpone.iter_moved hw he ha hi
    have := ih (g := Postpone.graph g M₁) h3 (fun k hk => hks k (List.mem_cons_of_mem _ hk)) h2.symm rfl
    exact ⟨this.nodup, this.reach⟩

theorem spawned {n : Nat} {K W M : Type} [DecidableEq K] {mk : Spawn.Maker K W M} {limit : Nat} {hash : K → Nat} {hn : 0 < n} {k₀ : K}
    {r : Gr (Spawn.Id n) (Option W) M} (h : Spawn.Launched mk limit hash hn k₀ (.ok r)) (m : Spawn.Id n) : r.inn m = [] := by
  obtain ⟨x, -, -, h⟩ := h
  split_ifs at h
  cases h; rfl

/-- **C111.** Whatever the sequence of operations a graph comes from, its list of nodes contains exactly those that can be reached from the base
node, each once, and either there are no incoming edges or they are the reverse edges. -/
theorem C111_history {g : Gr N V L} (h : Made g) : g.WF ∧ Paired g := by
  induction h with
  | built hb hr h => exact ⟨Build.C60_built_wf hb hr h, .of_nil fun _ _ => rfl⟩
  | fabricated _ h ih =>
    exact ⟨(Fab.C16_copy ih.1 h).2, .of_nil fun m _ => spawned h m⟩
  | crossed _ _ h ih ih' =>
    obtain ⟨pairs, hp, -⟩ := Cross.C17_pairs _ ih.1 ih'.1
    exact ⟨(Cross.C17_product hp h).2, .of_nil fun m _ => spawned h m⟩
  | @observed n N V L _ g needed addr hn inn _ h ih =>
    refine ⟨wf_inn ih.1 _, ?_⟩
    cases needed
    · unfold Duplex.Prepared at h
      rw [if_neg (by simp)] at h
      rw [h.1]; exact ih.2
    · exact .of_exact (prepared_exact ih.1 ih.2 h)
  | filtered _ h1 h2 ih =>
    rcases filters_wf (wf_inn ih.1 _) h2 with rfl | ⟨h3, h4⟩
    · exact ⟨wf_inn ih.1 _, .of_exact (prepared_exact ih.1 ih.2 h1)⟩
    · exact ⟨h3, .of_nil fun m _ => h4 m⟩
  | mutated _ h1 h2 ih =>
    classical
    have := Mutate.C85_full (exact_full (wf_inn ih.1 _) (prepared_exact ih.1 ih.2 h1)) h2
    exact ⟨this.wf, .of_exact (full_exact this)⟩
  | merged _ h1 h2 h3 h4 h5 h6 h7 h8 h9 h10 h11 ih =>
    obtain ⟨cls, hq⟩ := Merge.C33_quotient (wf_inn ih.1 _) h2 h3 h4 h5 h6 h7 h8 h9 h10 h11
    exact ⟨wf_inn hq.wf _, .of_nil fun m hm => halved_nil ih.1 ih.2 h1 m (hq.nodes m hm).1⟩
  | composed _ h1 h2 h3 h4 ih =>
    obtain ⟨h5, h6⟩ := composes_wf h2 h3 h4 (wf_inn ih.1 _)
    exact ⟨wf_inn h5 _, .of_nil fun m hm => halved_nil ih.1 ih.2 h1 m (h6 m hm)⟩
  | postponed _ h1 h2 h3 h4 h5 ih =>
    have := postpones_wf (wf_inn ih.1 _) h2 h3 h4 h5
    exact ⟨⟨this.nodup, this.reach⟩, .of_nil fun m hm => halved_nil ih.1 ih.2 h1 m hm⟩
  | split _ _ h ih =>
    refine ⟨(Split.C37_wf (wf_inn ih.1 _) h).1, .of_nil fun m _ => ?_⟩
    obtain ⟨x, -, -, -, y, -, -, -, h⟩ := h
    split at h
    · cases h.2
    · obtain ⟨z, -, -, -, ⟨-, -, h⟩ | ⟨-, h⟩⟩ := h
      · cases h
      · cases h; rfl
  | stretched _ h1 h2 h3 ih =>
    obtain ⟨N'', g'', h4, i, inc, old, h5, h6, -⟩ := Stretch.C36_stretched h1 ih.1 h2 (by simp) h3
    exact ⟨⟨h6.reach.nodup, h6.reach.mem⟩, .of_nil fun m _ => h6.inn m⟩
  | spread _ h1 h2 h3 h4 ih =>
    rcases Spread.C39_spread h1 h2 ih.1 h3 h4 with ⟨r, h5, h6, -⟩ | ⟨e, h5, -⟩
    · cases h5
      refine ⟨h6.wf, .of_nil fun m _ => ?_⟩
      cases h4 with
      | done x y _ _ _ _ _ _ h => cases h; rfl
    · cases h5
  | deduplicated _ h1 h2 h3 ih =>
    have := Dedup.C30_fused h2 (wf_inn ih.1 _) h3
    exact ⟨⟨this.reach.nodup, this.reach.mem⟩, .of_nil fun m hm => halved_nil ih.1 ih.2 h1 m (this.nodes m hm)⟩
  | moved _ h ih => exact ⟨moved_wf h ih.1, moved_paired h ih.2⟩

/-- **C111.** Therefore its vertices, edges and terminal vertices are counted correctly. -/
theorem C111_counted {g : Gr N V L} [DecidableEq N] (h : Made g) {W n c : Nat} {k : Count.Kind} {hash : N → Nat} {failed : Prop}
    (hW : Count.rightCount g k < W) (hc : Count.Returns W k g hash n c failed) : c = Count.rightCount g k ∧ ¬ failed :=
  Count.C14_count (C111_history h).1 hW hc

/-- **C111.** All of it is reclaimed, exactly once, even if there's no memory left. -/
theorem C111_freed {g : Gr N V L} [DecidableEq N] [DecidableEq L] (h : Made g) {n : Nat} {hash : N → Nat} {hn : 0 < n} {e : Int}
    {l : Free.Log N V L} (hf : Free.FreesNow g hash hn e l) (he : e ≠ Free.badGph) : Free.Disposed g l :=
  Free.C107_now (C111_history h).1 hf he

/-- **C111.** Going backwards along the incoming edges that an operation prepares is the same as looking for paths from other vertices. -/
theorem C111_backwards {g : Gr N V L} [DecidableEq N] (h : Made g) {n : Nat} {addr : N → Nat} {hn : 0 < n} {inn : N → List (L × N)}
    (hp : Duplex.Prepared true addr hn g inn 0) {a : N} (ha : a ∈ g.nodes) (m : N) :
    Reaches (({ g with inn := inn } : Gr N V L).next true) a m ↔ m ∈ g.nodes ∧ Reaches (g.next false) m a :=
  Duplex.C31_backwards (inn := inn) (C111_history h).1 (Duplex.C31_prepared (C111_history h).1 (C111_history h).2.ends hp) ha m

/-- **C111.** Any graph with a history can be mutated further by anything that doesn't raise an error. -/
theorem C111_mutable {g : Gr N V L} [DecidableEq N] (h : Made g) {k : Mutate.Kernel V L} (hk : ∀ e, ¬ Mutate.Raised k e) {b : N} (hb : b ∈ g.nodes)
    (p : Mutate.Plan) (hash : N → Nat) {n : Nat} (hn : 0 < n) :
    ∃ inn s r, Duplex.Prepared true hash hn g inn 0 ∧ Mutate.Mutates { g with inn := inn } p b k hash hn 0 0 0 s (.ok r) ∧ Made r := by
  classical
  obtain ⟨hw, hp⟩ := C111_history h
  have : ∃ inn, Duplex.Prepared true hash hn g inn 0 := by
    unfold Duplex.Prepared
    split_ifs
    · exact (Duplex.C31_terminates hw hash hn).2.1
    · exact ⟨_, rfl, rfl⟩
  obtain ⟨inn, h1⟩ := this
  obtain ⟨s, r, h2⟩ := Mutate.C20_exists (exact_full (wf_inn hw _) (prepared_exact hw hp h1)) (b := b) hb hk p hash hn
  exact ⟨inn, s, r, h1, h2, .mutated h h1 h2⟩

/-! ## An example -/

/-- Count the edges of a vertex and mark the labels. -/
def tally : Mutate.Kernel (Option Nat) Nat :=
  ⟨some fun v ins outs => .ok (v.map fun v => v + ins.length + outs.length), false, false, some fun _ l _ => .ok (l + 10)⟩

theorem tally_ok (e : Int) : ¬ Mutate.Raised tally e := by
  rintro (⟨f, v, ins, outs, x, h1, h2, -⟩ | ⟨f, v, l, w, x, h1, h2, -⟩)
  · injection h1 with h1; subst h1; cases h2
  · injection h1 with h1; subst h1; cases h2

/-- A graph with cycles is built, mutated, copied, mutated backwards, and crossed with itself. -/
example : ∃ (G : Build.Graph 3 Nat Nat) (h : Gr (Build.NodeId 3) (Option Nat) Nat) (c : Gr (Spawn.Id 2) (Option (Option Nat)) Nat)
    (r : Gr (Spawn.Id 4) (Option (Option (Option Nat) × Option (Option Nat))) (Nat × Nat)),
    Made G.toGr ∧ Made h ∧ h.nodes = G.toGr.nodes ∧ Made c ∧ Made r ∧ r.WF ∧ Paired r ∧ r.nodes ≠ [] := by
  obtain ⟨G, hG⟩ := Build.demoB_returns (n := 3) (by decide)
  have m1 : Made G.toGr := .built Build.demoB_sane Build.demoB_respects hG
  obtain ⟨inn, s, h, h1, h2, m2⟩ := C111_mutable m1 tally_ok (((C111_history m1).1.reach _).2 .refl) ⟨false, true, false⟩ (fun t => t.2) (show 0 < 2 by decide)
  have hfull := exact_full (wf_inn (C111_history m1).1 inn) (prepared_exact (C111_history m1).1 (C111_history m1).2 h1)
  obtain ⟨c, h3⟩ := (Fab.C16_terminates (C111_history m2).1 id id (fun t : Build.NodeId 3 => t.2) (show 0 < 2 by decide)).2
  have m3 : Made c := .fabricated m2 h3
  let x : Cross.Crosser (Option (Option Nat)) (Option (Option Nat)) Nat Nat (Option (Option Nat) × Option (Option Nat)) (Nat × Nat) :=
    ⟨Prod.mk, fun l l' => l ≤ l', Prod.mk, 0⟩
  obtain ⟨r, h4⟩ : ∃ r, Cross.Crossed x (fun t => t.2) (show 0 < 4 by decide) c c (.ok r) := by
    obtain ⟨pairs, hp, -⟩ := Cross.C17_pairs x (C111_history m3).1 (C111_history m3).1
    obtain ⟨⟨r, h4, h5⟩, h6⟩ := Cross.C74_verdict (addr := fun t => t.2) (hn := show 0 < 4 by decide) x hp
    rcases r with e | r
    · rcases Cross.C74_beyond hp h4 with rfl | ⟨-, h7, -⟩
      · exact absurd rfl h5
      · exact absurd rfl h7
    · exact ⟨r, h4⟩
  have m4 : Made r := .crossed m3 m3 h4
  exact ⟨G, h, c, r, m1, m2, (Mutate.C85_shape hfull h2).1, m3, m4, (C111_history m4).1, (C111_history m4).2,
    List.ne_nil_of_mem (((C111_history m4).1.reach _).2 .refl)⟩

end Cru.History
