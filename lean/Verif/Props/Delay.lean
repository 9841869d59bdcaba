import Verif.Model.Delay
import Verif.Spec.Words
import Verif.Props.Postpone
import Verif.Props.Closure

/-! # C160: postponement with functions left out -/

namespace Cru.Postpone

variable {n : Nat} {N V L : Type} [DecidableEq N] [DecidableEq L] {g : Gr N V L}

/-- An edge from `m` to another vertex that's postponable according to `pp`. -/
def Late (pp : Option V → L → Option V → Bool) (g : Gr N V L) (m : N) (e : L × N) : Prop :=
  e ∈ g.out m ∧ e.2 ≠ m ∧ pp (some (g.vertex m)) e.1 (some (g.vertex e.2)) = true

/-- An edge from `m` to another vertex that's not. -/
def Early (pp : Option V → L → Option V → Bool) (g : Gr N V L) (m : N) (e : L × N) : Prop :=
  e ∈ g.out m ∧ e.2 ≠ m ∧ pp (some (g.vertex m)) e.1 (some (g.vertex e.2)) = false

theorem inferred_default (i : Nat) {s : Infer.Sig} (hf : s.eFree = none) (ho : s.eOrder = ⟨none, none⟩) :
    ∃ s', Infer.inferredPostponer ⟨some (.user i), none, none⟩ s = .ok (⟨some (.user i), some .trueBpred, some .identityBop⟩, s') ∧ s'.eOrder.equal = some .equalityBpred := by
  obtain ⟨vo, eo, vf, ef⟩ := s
  cases hf
  cases ho
  exact ⟨_, rfl, rfl⟩

variable {u : Env V L} {i : Nat} {s : Infer.Sig} {addr : N → Nat} {hn : 0 < n} {M : Mem N V L} {ks : List (Nat × Nat)} {err : Int}

private theorem gone_iff {fix : Bool} {m : N} {e : L × N} (he : e ∈ g.out m) :
    gone (u.postponer ⟨some (.user i), some .trueBpred, some .identityBop⟩ fix) (fun m => some (g.vertex m)) m (g.out m) e = true ↔
      Late (u.tpred i) g m e ∧ ∃ d, Early (u.tpred i) g m d := by
  simp only [gone, movable, stationary, Env.postponer, Env.callTpred, Env.callBpred, Bool.and_eq_true, List.any_eq_true, decide_eq_true_eq, Late, Early,
    Bool.not_eq_true', and_true]
  constructor
  · rintro ⟨⟨h1, h2⟩, d, h3, h4, h5⟩
    exact ⟨⟨he, h1, h2⟩, d, h3, h4, h5⟩
  · rintro ⟨⟨-, h1, h2⟩, d, h3, h4, h5⟩
    exact ⟨⟨h1, h2⟩, d, h3, h4, h5⟩

/-- **C160.** With neither a predicate nor an operator given, and scalar labels, a pass that isn't killed ends without an error, and leaves
the vertices as they are, and as edges those of the given graph other than postponable ones with siblings that aren't, and those ones moved, with the
same labels, to the termini of all these siblings. -/
theorem C160_default (hw : g.WF) (ha : Function.Injective addr) (hf : s.eFree = none) (ho : s.eOrder = ⟨none, none⟩)
    (h : PostponedBy u ⟨some (.user i), none, none⟩ s false addr hn g M ks err) (hks : ∀ k ∈ ks, k = (0, 0)) :
    err = 0 ∧ ∀ m ∈ g.nodes, M.vertex m = some (g.vertex m) ∧ ∀ l t, (l, t) ∈ M.out m ↔
      ((l, t) ∈ g.out m ∧ ¬ (Late (u.tpred i) g m (l, t) ∧ ∃ d, Early (u.tpred i) g m d)) ∨
        ∃ o ∈ g.nodes, Late (u.tpred i) g o (l, t) ∧ ∃ k, Early (u.tpred i) g o (k, m) := by
  obtain ⟨s', hi, he⟩ := inferred_default i hf ho
  unfold PostponedBy at h
  rw [hi] at h
  dsimp only at h
  rw [he] at h
  have heq : u.callBpred (some .equalityBpred) = Compose.scalarEqual := rfl
  rw [heq] at h
  obtain ⟨h1, hm⟩ := C40_postponed hw Compose.scalar_equality ha rfl h hks
  refine ⟨h1, fun m hmm => ⟨hm.vertex m hmm, fun l t => ?_⟩⟩
  have hk : (l, t) ∈ kept (u.postponer ⟨some (.user i), some .trueBpred, some .identityBop⟩ false) g m ↔
      (l, t) ∈ g.out m ∧ ¬ (Late (u.tpred i) g m (l, t) ∧ ∃ d, Early (u.tpred i) g m d) := by
    unfold kept
    rw [List.mem_filter]
    refine and_congr_right fun h => ?_
    rw [← gone_iff h, Bool.not_eq_true', Bool.not_eq_true]
  have har : (l, t) ∈ arrivals (u.postponer ⟨some (.user i), some .trueBpred, some .identityBop⟩ false) g m ↔
      ∃ o ∈ g.nodes, Late (u.tpred i) g o (l, t) ∧ ∃ k, Early (u.tpred i) g o (k, m) := by
    refine mem_landed.trans ?_
    simp only [mem_created, movable, stationary, Env.postponer, Env.callTpred, Env.callBpred, Env.callBop, Bool.and_eq_true, decide_eq_true_eq, Late, Early,
      Bool.not_eq_true', true_and]
    refine exists_congr fun o => and_congr_right fun _ => ?_
    constructor
    · rintro ⟨⟨a, b⟩, h3, ⟨c, d⟩, h4, ⟨h5, h6⟩, ⟨h7, h8⟩, h9⟩
      cases h9
      exact ⟨⟨h3, h5, h6⟩, c, h4, h7, h8⟩
    · rintro ⟨⟨h3, h5, h6⟩, k, h4, h7, h8⟩
      exact ⟨(l, t), h3, (k, m), h4, ⟨h5, h6⟩, ⟨h7, h8⟩, rfl⟩
  rw [← hk, ← har]
  by_cases hz : arrivals (u.postponer ⟨some (.user i), some .trueBpred, some .identityBop⟩ false) g m = []
  · rw [(hm.plain m hmm hz).mem_iff, hz]
    simp
  · obtain ⟨d, ht⟩ := hm.merged m hmm hz
    rw [or_comm, ← List.mem_append]
    constructor
    · exact fun h => ht.perm.subset (List.mem_append_left _ h)
    · intro h
      obtain ⟨o, h3, h4⟩ := ht.covers _ h
      rw [Compose.same_scalar] at h4
      exact h4 ▸ h3

/-- **C160.** So if a vertex has a postponable edge, and another one that's not, then its path with the label of the first is traded for
one with both labels, the first of them last. -/
theorem C160_path (hw : g.WF) (ha : Function.Injective addr) (hf : s.eFree = none) (ho : s.eOrder = ⟨none, none⟩)
    (h : PostponedBy u ⟨some (.user i), none, none⟩ s false addr hn g M ks err) (hks : ∀ k ∈ ks, k = (0, 0))
    {m : N} (hm : m ∈ g.nodes) {a b : L} {x y : N} (hl : Late (u.tpred i) g m (a, x)) (hy : Early (u.tpred i) g m (b, y)) :
    Spells M.out m [b, a] x := by
  have hmy : y ∈ g.nodes := (hw.reach _).2 (((hw.reach _).1 hm).tail (by simpa [Gr.next] using ⟨b, hy.1⟩))
  have hd := (C160_default hw ha hf ho h hks).2
  refine .cons (b := y) (((hd m hm).2 b y).2 (.inl ⟨hy.1, fun hc => ?_⟩)) (.cons (((hd y hmy).2 a x).2 (.inr ⟨m, hm, hl, b, hy⟩)) (.nil _))
  have h1 := hc.1.2.2
  rw [hy.2.2] at h1
  cases h1

/-- **C160.** With `po_fix` set, and no duplicate edges given, no vertex of the result has an edge to another vertex that's postponable, and
one that's not. -/
theorem C160_fixed (hw : g.WF) (ha : Function.Injective addr) (hf : s.eFree = none) (ho : s.eOrder = ⟨none, none⟩)
    (hd : ∀ m ∈ g.nodes, (g.out m).Nodup) (h : PostponedBy u ⟨some (.user i), none, none⟩ s true addr hn g M ks err) (hks : ∀ k ∈ ks, k = (0, 0)) :
    err = 0 ∧ ∃ R : Gr N V L, M = mem R ∧ R.WF ∧ ∀ m ∈ R.nodes, (R.out m).Nodup ∧ ¬ ((∃ e, Late (u.tpred i) R m e) ∧ ∃ d, Early (u.tpred i) R m d) := by
  obtain ⟨s', hi, he⟩ := inferred_default i hf ho
  unfold PostponedBy at h
  rw [hi] at h
  dsimp only at h
  rw [he] at h
  have heq : u.callBpred (some .equalityBpred) = Compose.scalarEqual := rfl
  rw [heq] at h
  obtain ⟨h1, R, h2, h3, -, h4⟩ := C70_fixed hw Compose.scalar_equality ha rfl h hks
  obtain ⟨h5, h6⟩ := h4 fun m hm => (hd m hm).imp fun h hs => h (Compose.same_scalar.1 hs)
  refine ⟨h1, R, h2, h3, fun m hm => ⟨(h5 m hm).imp fun h hs => h (Compose.same_scalar.2 hs), ?_⟩⟩
  rintro ⟨⟨e, hl⟩, d, hy⟩
  have := h6 m hm e hl.1
  rw [(gone_iff hl.1).2 ⟨hl, d, hy⟩] at this
  cases this

/-- Edges with the label 1 are postponable. -/
def ones : Env Nat Nat := ⟨fun _ _ l _ => decide (l = 1), fun _ _ _ => false, fun _ _ b => b⟩

def scalars : Infer.Sig := ⟨⟨none, none⟩, ⟨none, none⟩, none, none⟩

/-- Non-vacuity of C160: the edge labelled 1 from the first vertex of `hop` is moved to the second. -/
example : ∃ M ks err, PostponedBy ones ⟨some (.user 0), none, none⟩ scalars false id (show 0 < 3 by omega) (hop false) M ks err ∧ (∀ k ∈ ks, k = (0, 0)) ∧
    (1, 2) ∉ M.out 0 ∧ (0, 1) ∈ M.out 0 ∧ (1, 2) ∈ M.out 1 ∧ Spells M.out 0 [0, 1] 2 := by
  obtain ⟨M, ch, h⟩ := (C40_terminates (hop_wf false) Compose.scalar_equality Function.injective_id
    (ones.postponer ⟨some (.user 0), some .trueBpred, some .identityBop⟩ false) (show 0 < 3 by omega)).2.2
  have hp : PostponedBy ones ⟨some (.user 0), none, none⟩ scalars false id (show 0 < 3 by omega) (hop false) M [(0, 0)] 0 := ⟨.last h rfl, rfl⟩
  have hks : ∀ k ∈ [(0, 0)], k = (0, 0) := by simp
  have hd := (C160_default (hop_wf false) Function.injective_id rfl rfl hp hks).2
  have hl : Late (ones.tpred 0) (hop false) 0 (1, 2) := ⟨by decide, by decide, by decide⟩
  have hy : Early (ones.tpred 0) (hop false) 0 (0, 1) := ⟨by decide, by decide, by decide⟩
  refine ⟨M, _, _, hp, hks, ?_, ?_, ?_, C160_path (hop_wf false) Function.injective_id rfl rfl hp hks (by decide) hl hy⟩
  · rw [(hd 0 (by decide)).2]
    rintro (⟨-, h⟩ | ⟨o, ho, h1, k, h2⟩)
    · exact h ⟨hl, _, hy⟩
    · have h3 := h2.1
      have h4 : o = 0 ∨ o = 1 ∨ o = 2 ∨ o = 3 := by simp [hop] at ho; omega
      rcases h4 with rfl | rfl | rfl | rfl <;> simp [hop] at h3
  · exact ((hd 0 (by decide)).2 0 1).2 (.inl ⟨by decide, fun h => absurd h.1.2.2 (by decide)⟩)
  · exact ((hd 1 (by decide)).2 1 2).2 (.inr ⟨0, by decide, hl, 0, hy⟩)

/-- Non-vacuity of C160_fixed. -/
example : ∃ M, PostponedBy ones ⟨some (.user 0), none, none⟩ scalars true id Nat.one_pos (hop false) M [(0, 0), (0, 0), (0, 0)] 0 ∧ M.out 3 = [(1, 2)] ∧
    ∀ m ∈ (hop false).nodes, ((hop false).out m).Nodup :=
  ⟨_, ⟨.more (pass_iter _ (mem (hop false)) true (by decide)) rfl
    (.more (pass_iter _ _ true (by decide)) rfl (.last (pass_iter _ _ false (by decide)) rfl)), rfl⟩, by decide, by decide⟩

end Cru.Postpone
