import Verif.Model.Merge
import Verif.Proofs.Trav
import Verif.Proofs.Edges
import Verif.Props.Table
import Verif.Proofs.Merge
import Verif.Props.Edges
import Verif.Spec.Merge
import Verif.Props.Partition

/-! # C32: the pruner, and C33: merging -/

namespace Cru.Merge

open Net Table

variable {n : Nat} {N V L P : Type}

theorem gatherOne_eq (hash : L → Nat) (eq : L → L → Bool) (es acc : List (L × N)) :
    gatherOne hash eq es acc = (es.reverse ++ acc, recorded hash eq (es.map Prod.fst)) := by
  unfold gatherOne recorded
  have : ∀ (es : List (L × N)) (acc : List (L × N)) (t : Table L Nat),
      es.foldl (fun s x => (x :: s.1, record hash eq x.1 s.2)) (acc, t) =
        (es.reverse ++ acc, (es.map Prod.fst).foldl (fun t l => record hash eq l t) t) := by
    intro es
    induction es with
    | nil => intros; rfl
    | cons e es ih => intro acc t; simp [ih]
  exact this es acc _

theorem gather_fst (hash : L → Nat) (eq : L → L → Bool) (ms : List (List (L × N))) : (gather hash eq ms).1 = ms.flatten.reverse := by
  unfold gather
  simp only [gatherOne_eq]
  have : ∀ (ms : List (List (L × N))) (s : List (L × N) × Table L Nat),
      (ms.foldl (fun s es => (es.reverse ++ s.1, merge eq s.2 (recorded hash eq (es.map Prod.fst)))) s).1 =
        ms.flatten.reverse ++ s.1 := by
    intro ms
    induction ms with
    | nil => intros; rfl
    | cons m ms ih => intro s; rw [List.foldl_cons, ih]; simp
  rw [this]; simp

theorem merge_empty_made {hash : L → Nat} {eq : L → L → Bool} (he : IsEquality eq) (hh : ∀ a b, eq a b = true → hash a = hash b)
    (l : L) (ms : List (List (L × N))) :
    alreadyRecorded hash eq l (gather hash eq ms).2 = decide (0 < containing eq l (ms.map fun es => es.map Prod.fst)) ∧
    multiplicity hash eq l (gather hash eq ms).2 = containing eq l (ms.map fun es => es.map Prod.fst) - 1 := by
  induction ms using List.reverseRecOn with
  | nil => exact ⟨rfl, rfl⟩
  | append_singleton ms es ih =>
    have h1 : (gather hash eq (ms ++ [es])).2 = merge eq (gather hash eq ms).2 (recorded hash eq (es.map Prod.fst)) := by
      unfold gather
      rw [List.foldl_append]
      simp [gatherOne_eq]
    have hm : Made hash eq (recorded hash eq (es.map Prod.fst)) := by
      have : ∀ ls : List L, Made hash eq (recorded hash eq ls) := by
        intro ls
        induction ls using List.reverseRecOn with
        | nil => exact .empty
        | append_singleton ls l ih =>
          have : recorded hash eq (ls ++ [l]) = record hash eq l (recorded hash eq ls) := by
            unfold recorded; rw [List.foldl_append]; rfl
          rw [this]; exact .record l ih
      exact this _
    obtain ⟨h2, h3⟩ := C53_merge he l (t := (gather hash eq ms).2) hm
    have hone := Merged.one (hash := hash) (eq := eq) (es.map Prod.fst)
    have h4 := C53_multiplicity he hh l hone
    have h5 : alreadyRecorded hash eq l (recorded hash eq (es.map Prod.fst)) = (es.map Prod.fst).any fun x => eq l x := by
      rw [Bool.eq_iff_iff, C53_recorded he hh l hone]; simp
    have h6 : containing eq l ((ms ++ [es]).map fun es => es.map Prod.fst) = containing eq l (ms.map fun es => es.map Prod.fst) +
        if (es.map Prod.fst).any (fun x => eq l x) then 1 else 0 := by
      simp [containing, List.countP_append, List.countP_cons]
    rw [h1, h2, h3, ih.1, ih.2, h4, h5, h6]
    have h7 : containing eq l [es.map Prod.fst] ≤ 1 := by
      unfold containing; exact le_trans List.countP_le_length (by simp)
    by_cases hx : (es.map Prod.fst).any (fun x => eq l x) = true
    · simp only [hx, Bool.or_true, Bool.and_true, if_true, decide_eq_true_eq]
      refine ⟨by simp, ?_⟩
      split_ifs with hc <;> omega
    · rw [Bool.not_eq_true] at hx
      simp only [hx, Bool.or_false, Bool.and_false, Bool.false_eq_true, if_false]
      exact ⟨by simp, by omega⟩

/-- **C32.** The flag is true for a label if and only if every member of the class has an outgoing edge with an equal label. -/
theorem C32_flag {hash : L → Nat} {eq : L → L → Bool} (he : IsEquality eq) (hh : HashRespects hash eq)
    (ms : List (List (L × N))) (l : L) (hl : ∃ es ∈ ms, ∃ e ∈ es, e.1 = l) :
    flag hash eq (gather hash eq ms).2 ms.length l = true ↔ ∀ es ∈ ms, ∃ e ∈ es, eq l e.1 = true := by
  have hc : containing eq l (ms.map fun es => es.map Prod.fst) = ms.countP fun es => es.any fun e => eq l e.1 := by
    unfold containing
    rw [List.countP_map]
    congr 1
    funext es
    simp only [Function.comp_apply, List.any_map]
    rfl
  have hpos : 0 < ms.countP fun es => es.any fun e => eq l e.1 := by
    obtain ⟨es, h1, e, h2, rfl⟩ := hl
    exact List.countP_pos_iff.2 ⟨es, h1, List.any_eq_true.2 ⟨e, h2, he.refl _⟩⟩
  have hle : ms.countP (fun es => es.any fun e => eq l e.1) ≤ ms.length := List.countP_le_length
  have hall : (∀ es ∈ ms, ∃ e ∈ es, eq l e.1 = true) ↔ ms.countP (fun es => es.any fun e => eq l e.1) = ms.length := by
    rw [List.countP_eq_length]; simp
  rw [hall]
  unfold flag
  split_ifs with h1
  · simp only [true_iff]; omega
  · rw [(merge_empty_made he hh l ms).2, hc, beq_iff_eq]; omega

/-- **C32.** The pruner is called once for each outgoing edge of a member, with the edge's label and a flag that's true if and only if
every member has an outgoing edge with an equal label.  The edges for which it's false are deleted, and no others. -/
theorem C32_pruner {hash : L → Nat} {eq : L → L → Bool} (he : IsEquality eq) (hh : HashRespects hash eq) (f : Bool → L → Bool)
    (ms : List (List (L × N))) (clock : Nat) :
    let r := filterEdges (some fun _ b l => (f b l, 0)) hash eq (gather hash eq ms).2 ms.length (gather hash eq ms).1 clock
    ∃ fl : L → Bool, (∀ es ∈ ms, ∀ e ∈ es, fl e.1 = true ↔ ∀ es' ∈ ms, ∃ e' ∈ es', eq e.1 e'.1 = true) ∧
      r.calls.Perm (ms.flatten.map fun e => (fl e.1, e.1)) ∧
      r.kept.Perm (ms.flatten.filter fun e => f (fl e.1) e.1) ∧
      r.deleted.Perm (ms.flatten.filter fun e => !f (fl e.1) e.1) ∧ r.err = 0 := by
  intro r
  refine ⟨flag hash eq (gather hash eq ms).2 ms.length, fun es hes e hee => C32_flag he hh ms e.1 ⟨es, hes, e, hee, rfl⟩, ?_⟩
  have key : ∀ (fl : L → Bool) (es : List (L × N)) (s : Pruned L N), s.err = 0 →
      let q := es.foldl (pruneOne (fun _ b l => (f b l, 0)) fl) s
      q.calls = s.calls ++ es.map (fun e => (fl e.1, e.1)) ∧ q.kept = s.kept ++ es.filter (fun e => f (fl e.1) e.1) ∧
      q.deleted = (es.filter fun e => !f (fl e.1) e.1).reverse ++ s.deleted ∧ q.err = 0 := by
    intro fl es
    induction es with
    | nil => intro s h; simp [h]
    | cons e es ih =>
      intro s h
      by_cases hf : f (fl e.1) e.1 = true
      · have : pruneOne (fun _ b l => (f b l, 0)) fl s e =
            ⟨s.kept ++ [e], s.deleted, s.calls ++ [(fl e.1, e.1)], s.clock + 1, 0⟩ := by
          unfold pruneOne; rw [if_neg (by simp [h]), if_pos ⟨rfl, hf⟩]
        obtain ⟨h1, h2, h3, h4⟩ := ih _ (show (pruneOne (fun _ b l => (f b l, 0)) fl s e).err = 0 by rw [this])
        rw [this] at h1 h2 h3
        exact ⟨by rw [List.foldl_cons, this, h1]; simp, by rw [List.foldl_cons, this, h2]; simp [hf],
          by rw [List.foldl_cons, this, h3]; simp [hf], h4⟩
      · have : pruneOne (fun _ b l => (f b l, 0)) fl s e =
            ⟨s.kept, e :: s.deleted, s.calls ++ [(fl e.1, e.1)], s.clock + 1, 0⟩ := by
          unfold pruneOne; rw [if_neg (by simp [h]), if_neg (by simp [hf])]
        obtain ⟨h1, h2, h3, h4⟩ := ih _ (show (pruneOne (fun _ b l => (f b l, 0)) fl s e).err = 0 by rw [this])
        rw [this] at h1 h2 h3
        exact ⟨by rw [List.foldl_cons, this, h1]; simp, by rw [List.foldl_cons, this, h2]; simp [hf],
          by rw [List.foldl_cons, this, h3]; simp [hf], h4⟩
  obtain ⟨h1, h2, h3, h4⟩ := key (flag hash eq (gather hash eq ms).2 ms.length) (gather hash eq ms).1 ⟨[], [], [], clock, 0⟩ rfl
  have e1 : r.calls = _ := h1
  have e2 : r.kept = _ := h2
  have e3 : r.deleted = _ := h3
  rw [e1, e2, e3]
  have hp := gather_fst hash eq ms ▸ List.reverse_perm ms.flatten
  refine ⟨?_, ?_, ?_, h4⟩
  · simpa using hp.map _
  · simpa using hp.filter _
  · simpa using (List.reverse_perm _).trans (hp.filter fun e => !f (flag hash eq (gather hash eq ms).2 ms.length e.1) e.1)

/-- Three members of a class have edges with labels equal modulo ten.  Label 1 is common to them, and 2 isn't. -/
example :
    let ms : List (List (Nat × Nat)) := [[(1, 5), (2, 6)], [(11, 5)], [(21, 7), (1, 8), (12, 9)]]
    let eq : Nat → Nat → Bool := fun a b => decide (a % 10 = b % 10)
    let r := filterEdges (some fun _ b l => (b || decide (l = 2), 0)) (fun a => a % 10) eq (gather (fun a => a % 10) eq ms).2 3
      (gather (fun a => a % 10) eq ms).1 0
    r.kept = [(1, 8), (21, 7), (11, 5), (2, 6), (1, 5)] ∧ r.deleted = [(12, 9)] ∧
      r.calls = [(false, 12), (true, 1), (true, 21), (true, 11), (false, 2), (true, 1)] := by decide

/-! ## Merging -/

/-- The edges of a class that remain. -/
theorem kept_perm {o : EdgeOps N L} (he : IsEquality o.eq) (hh : HashRespects o.hash o.eq) (ms : List (List (L × N))) :
    (filterEdges (o.pruner.map fun f _ b l => (f b l, (0 : Int))) o.hash o.eq (gather o.hash o.eq ms).2 ms.length
      (gather o.hash o.eq ms).1 0).kept.Perm (survivors o.eq o.pruner ms) := by
  unfold survivors
  rcases hp : o.pruner with _ | f
  · have : ms.flatten.filter (fun e => (none : Option (Bool → L → Bool)).elim true
        fun f => f (ms.all fun es => es.any fun e' => o.eq e.1 e'.1) e.1) = ms.flatten := by
      rw [List.filter_eq_self]; intros; rfl
    rw [this]
    show (gather o.hash o.eq ms).1.Perm _
    rw [gather_fst]; exact List.reverse_perm _
  · obtain ⟨fl, h1, -, h2, -⟩ := C32_pruner he hh f ms 0
    refine h2.trans (List.Perm.of_eq (List.filter_congr ?_))
    intro e hm
    obtain ⟨es, hes, hee⟩ := List.mem_flatten.1 hm
    have : fl e.1 = ms.all fun es => es.any fun e' => o.eq e.1 e'.1 := by
      rw [Bool.eq_iff_iff, h1 es hes e hee]; simp
    simp [this]

theorem perm_transversal {α : Type} {rel : α → α → Prop} {es es' out dropped : List α} (hp : es.Perm es')
    (h : IsTransversal rel es out dropped) : IsTransversal rel es' out dropped :=
  ⟨h.perm.trans hp, h.distinct, fun e he => h.covers e (hp.mem_iff.2 he)⟩

theorem reduced_brigade (red : List (L × N) → L) (cls : N → N) (b : List (List (L × N))) (acc : List (L × N)) :
    b.foldl (fun acc b => b.head?.elim acc fun e => (red b, cls e.2) :: acc) acc =
    (b.filterMap fun b => b.head?.map fun e => (red b, cls e.2)).reverse ++ acc := by
  induction b generalizing acc with
  | nil => rfl
  | cons k b ih =>
    rw [List.foldl_cons, ih]
    cases k with
    | nil => rw [List.filterMap_cons_none rfl]; rfl
    | cons e t => simp

theorem fused_spec [DecidableEq N] {o : EdgeOps N L} (he : IsEquality o.eq) (hh : HashRespects o.hash o.eq) {addr : N → Nat}
    (ha : Function.Injective addr) (cls : N → N) (ms : List (List (L × N))) : IsFused o cls ms (fusedEdges o cls addr ms) := by
  have hk := kept_perm he hh ms
  unfold fusedEdges
  simp only
  generalize (filterEdges (o.pruner.map fun f _ b l => (f b l, (0 : Int))) o.hash o.eq (gather o.hash o.eq ms).2 ms.length
      (gather o.hash o.eq ms).1 0).kept = es at *
  rcases hr : o.red with _ | red
  · refine ⟨fun _ => ?_, fun _ h => (by rw [hr] at h; cases h), fun _ h => (by rw [hr] at h; cases h), fun _ h => (by rw [hr] at h; cases h)⟩
    have ht := C27_deduplicated_edges (α := L × N) (leq := fun a b => o.eq a.1 b.1)
      ⟨fun a => he.refl _, fun a b h => he.symm _ _ h, fun a b c h h' => he.trans _ _ _ h h'⟩ (fun e => addr (cls e.2)) es
    refine ⟨(deduplicatedEdges (fun e => addr (cls e.2)) (fun a b => o.eq a.1 b.1) es).2.map fun e => (e.1, cls e.2), ?_, ?_, ?_⟩
    · rw [← List.map_append]; exact (ht.perm.trans hk).map _
    · rw [List.pairwise_map]
      exact ht.distinct.imp fun h h' => h ⟨congrArg addr h'.1, h'.2⟩
    · intro e he
      obtain ⟨e', h1, rfl⟩ := List.mem_map.1 he
      obtain ⟨q, h2, h3⟩ := ht.covers e' (hk.mem_iff.2 h1)
      exact ⟨_, List.mem_map.2 ⟨q, h2, rfl⟩, ha h3.1, h3.2⟩
  · simp only [reduced_brigade, List.append_nil]
    have hg := marshalled_grouping (fun e : L × N => addr (cls e.2)) es
    generalize marshalled (fun e : L × N => addr (cls e.2)) es = b at *
    have hmem : ∀ k ∈ b, ∃ e t, k = e :: t := by
      intro k hk
      cases k with
      | nil => exact absurd rfl (hg.nonempty [] hk)
      | cons e t => exact ⟨e, t, rfl⟩
    refine ⟨fun h => (by rw [hr] at h; cases h), fun r h => ?_, fun r h t => ?_, fun r h e hm => ?_⟩
    · rw [List.map_reverse, List.nodup_reverse, List.map_filterMap]
      refine List.Pairwise.filterMap _ ?_ hg.across
      intro k k' hkk t ht t' ht' htt
      simp only [Option.mem_def, Option.map_eq_some_iff] at ht ht'
      obtain ⟨x, ⟨e, h1, rfl⟩, rfl⟩ := ht
      obtain ⟨x', ⟨e', h1', rfl⟩, rfl⟩ := ht'
      exact hkk e (List.mem_of_mem_head? h1) e' (List.mem_of_mem_head? h1') (by simp only at htt; rw [htt])
    · simp only [List.map_reverse, List.mem_reverse, List.mem_map, List.mem_filterMap, Option.map_eq_some_iff]
      constructor
      · rintro ⟨x, ⟨k, hkb, e, h1, rfl⟩, rfl⟩
        exact ⟨e, hk.mem_iff.1 (hg.perm.mem_iff.1 (List.mem_flatten.2 ⟨k, hkb, List.mem_of_mem_head? h1⟩)), rfl⟩
      · rintro ⟨e, h1, rfl⟩
        obtain ⟨k, hkb, hek⟩ := List.mem_flatten.1 (hg.perm.mem_iff.2 (hk.mem_iff.2 h1))
        obtain ⟨e', t, rfl⟩ := hmem k hkb
        exact ⟨_, ⟨_, hkb, e', rfl, rfl⟩, ha (hg.within _ hkb e' List.mem_cons_self e hek)⟩
    · have hrr : red = r := by rw [hr] at h; cases h; rfl
      subst hrr
      simp only [List.mem_reverse, List.mem_filterMap, Option.map_eq_some_iff] at hm
      obtain ⟨k, hkb, e', h1, rfl⟩ := hm
      refine ⟨k, ?_, rfl⟩
      refine List.Perm.trans ?_ (hk.filter _)
      refine List.Perm.trans ?_ (hg.perm.filter _)
      obtain ⟨pre, post, rfl⟩ := List.append_of_mem hkb
      have hac := List.pairwise_append.1 hg.across
      have hac2 := List.pairwise_cons.1 hac.2.1
      have hself : k.filter (fun x => decide (cls x.2 = cls e'.2)) = k := by
        rw [List.filter_eq_self]
        intro x hx
        simpa using ha (hg.within k (by simp) x hx e' (List.mem_of_mem_head? h1))
      have hpre : pre.flatten.filter (fun x => decide (cls x.2 = cls e'.2)) = [] := by
        rw [List.filter_eq_nil_iff]
        intro x hx hc
        obtain ⟨q, hq, hxq⟩ := List.mem_flatten.1 hx
        exact hac.2.2 q hq k List.mem_cons_self x hxq e' (List.mem_of_mem_head? h1) (by simp at hc; rw [hc])
      have hpost : post.flatten.filter (fun x => decide (cls x.2 = cls e'.2)) = [] := by
        rw [List.filter_eq_nil_iff]
        intro x hx hc
        obtain ⟨q, hq, hxq⟩ := List.mem_flatten.1 hx
        exact hac2.1 q hq e' (List.mem_of_mem_head? h1) x hxq (by simp at hc; rw [hc])
      simp only [List.flatten_append, List.flatten_cons, List.filter_append, hpre, hpost, hself]
      simp

/-- Where edges of a class lead. -/
theorem IsFused.dest [DecidableEq N] {o : EdgeOps N L} {cls : N → N} {ms : List (List (L × N))} {out : List (L × N)}
    (h : IsFused o cls ms out) (t : N) : t ∈ out.map Prod.snd ↔ ∃ e ∈ survivors o.eq o.pruner ms, cls e.2 = t := by
  rcases hr : o.red with _ | red
  · obtain ⟨dropped, ht⟩ := h.dedup hr
    constructor
    · intro hm
      obtain ⟨e, h1, rfl⟩ := List.mem_map.1 hm
      obtain ⟨e', h2, rfl⟩ := List.mem_map.1 (ht.perm.mem_iff.1 (List.mem_append_left _ h1))
      exact ⟨e', h2, rfl⟩
    · rintro ⟨e, h1, rfl⟩
      obtain ⟨q, h2, h3, -⟩ := ht.covers _ (List.mem_map.2 ⟨e, h1, rfl⟩)
      exact List.mem_map.2 ⟨q, h2, h3⟩
  · exact h.mem red hr t

theorem survivors_mem {eq : L → L → Bool} {pruner : Option (Bool → L → Bool)} {ms : List (List (L × N))} {e : L × N} :
    (e ∈ survivors eq pruner ms → ∃ es ∈ ms, e ∈ es) ∧ (pruner = none → (∃ es ∈ ms, e ∈ es) → e ∈ survivors eq pruner ms) := by
  unfold survivors
  refine ⟨fun h => List.mem_flatten.1 (List.mem_filter.1 h).1, fun h1 h2 => List.mem_filter.2 ⟨List.mem_flatten.2 h2, ?_⟩⟩
  rw [h1]; rfl

section Classes

variable [DecidableEq N] {rel : N → N → Prop} {nodes : List N} {cs : List (List N)}

omit [DecidableEq N] in
theorem pairwise_ne {α : Type} {R : α → α → Prop} (hs : ∀ x y, R x y → R y x) {l : List α} (h : l.Pairwise R) {a b : α} (ha : a ∈ l)
    (hb : b ∈ l) (hne : a ≠ b) : R a b := by
  induction h with
  | nil => cases ha
  | cons h1 _ ih =>
    rcases List.mem_cons.1 ha with ea | ha' <;> rcases List.mem_cons.1 hb with eb | hb'
    · exact absurd (ea.trans eb.symm) hne
    · rw [ea]; exact h1 _ hb'
    · rw [eb]; exact hs _ _ (h1 _ ha')
    · exact ih ha' hb'

theorem class_unique (hrefl : ∀ a, rel a a) (hsymm : ∀ a b, rel a b → rel b a) (hg : IsGrouping rel nodes cs) {k k' : List N}
    (hk : k ∈ cs) (hk' : k' ∈ cs) {a : N} (h : a ∈ k) (h' : a ∈ k') : k = k' := by
  by_contra hne
  have := pairwise_ne (fun x y hxy a ha b hb hr => hxy b hb a ha (hsymm _ _ hr)) hg.across hk hk' hne
  exact this a h a h' (hrefl a)

theorem class_find (hrefl : ∀ a, rel a a) (hsymm : ∀ a b, rel a b → rel b a) (hg : IsGrouping rel nodes cs) {k : List N}
    (hk : k ∈ cs) {a : N} (h : a ∈ k) : cs.find? (fun k => decide (a ∈ k)) = some k := by
  rcases hf : cs.find? (fun k => decide (a ∈ k)) with _ | k'
  · exact absurd h (by simpa using List.find?_eq_none.1 hf k hk)
  · have h1 : a ∈ k' := by simpa using List.find?_some hf
    rw [class_unique hrefl hsymm hg (List.mem_of_find?_eq_some hf) hk h1 h]

theorem class_head (hrefl : ∀ a, rel a a) (hsymm : ∀ a b, rel a b → rel b a) (hg : IsGrouping rel nodes cs) {k : List N}
    (hk : k ∈ cs) {a : N} (h : k.head? = some a) : cs.find? (fun k => decide (k.head? = some a)) = some k := by
  rcases hf : cs.find? (fun k => decide (k.head? = some a)) with _ | k'
  · exact absurd h (by simpa using List.find?_eq_none.1 hf k hk)
  · have h1 : k'.head? = some a := by simpa using List.find?_some hf
    have h2 := class_unique hrefl hsymm hg (List.mem_of_find?_eq_some hf) hk (List.mem_of_mem_head? h1) (List.mem_of_mem_head? h)
    subst h2; exact hf

theorem classOf_head (hrefl : ∀ a, rel a a) (hsymm : ∀ a b, rel a b → rel b a) (hg : IsGrouping rel nodes cs) {k : List N}
    (hk : k ∈ cs) {a : N} (h : a ∈ k) : k.head? = some (classOf cs a) := by
  unfold classOf
  rw [class_find hrefl hsymm hg hk h]
  cases k with
  | nil => cases h
  | cons r t => rfl

end Classes

theorem quotient_core [DecidableEq N] {g : Gr N V L} {rel : N → N → Prop} (hrefl : ∀ a, rel a a) (hsymm : ∀ a b, rel a b → rel b a)
    (hw : g.WF) {o : EdgeOps N L} (he : IsEquality o.eq) (hh : HashRespects o.hash o.eq) {addr : N → Nat}
    (ha : Function.Injective addr) (vop : Option (List N → V)) {cs : List (List N)} (hg : IsGrouping rel g.nodes cs)
    (hb : ∀ k ∈ cs, g.base ∈ k → k.head? = some g.base) :
    (∀ m, Reaches ((fused g o vop addr cs).next false) g.base m → m ∈ g.nodes) ∧
    ∀ ms, Covers ((fused g o vop addr cs).next false) g.base ms →
      IsQuotient g { fused g o vop addr cs with nodes := ms } rel o vop (classOf cs) := by
  classical
  have hin : ∀ a ∈ g.nodes, ∃ k ∈ cs, a ∈ k := fun a h => List.mem_flatten.1 (hg.perm.mem_iff.2 h)
  have hout : ∀ k ∈ cs, ∀ a ∈ k, a ∈ g.nodes := fun k h a h' => hg.perm.mem_iff.1 (List.mem_flatten.2 ⟨k, h, h'⟩)
  have hbase : g.base ∈ g.nodes := (hw.reach _).2 .refl
  have hnext : ∀ a ∈ g.nodes, ∀ e ∈ g.out a, e.2 ∈ g.nodes := by
    intro a h e h'
    exact (hw.reach _).2 (((hw.reach _).1 h).tail (List.mem_map.2 ⟨e, h', rfl⟩))
  have hcls : ∀ a ∈ g.nodes, classOf cs a ∈ g.nodes ∧ rel a (classOf cs a) := by
    intro a h
    obtain ⟨k, h1, h2⟩ := hin a h
    have h3 := List.mem_of_mem_head? (classOf_head hrefl hsymm hg h1 h2)
    exact ⟨hout k h1 _ h3, hg.within k h1 a h2 _ h3⟩
  have hsame : ∀ a ∈ g.nodes, ∀ b ∈ g.nodes, rel a b → classOf cs a = classOf cs b := by
    intro a h b h' hr
    obtain ⟨k, h1, h2⟩ := hin a h
    obtain ⟨k', h1', h2'⟩ := hin b h'
    have : k = k' := by
      by_contra hne
      exact pairwise_ne (fun x y hxy a ha b hb hr => hxy b hb a ha (hsymm _ _ hr)) hg.across h1 h1' hne a h2 b h2' hr
    subst this
    have h3 := classOf_head hrefl hsymm hg h1 h2
    rw [classOf_head hrefl hsymm hg h1 h2'] at h3
    exact (Option.some.inj h3).symm
  have hidem : ∀ a ∈ g.nodes, classOf cs (classOf cs a) = classOf cs a :=
    fun a h => (hsame a h _ (hcls a h).1 (hcls a h).2).symm
  have hclsb : classOf cs g.base = g.base := by
    obtain ⟨k, h1, h2⟩ := hin _ hbase
    have := classOf_head hrefl hsymm hg h1 h2
    rw [hb k h1 h2] at this
    exact (Option.some.inj this).symm
  -- the class a representative stands for
  have hrep : ∀ m ∈ g.nodes, classOf cs m = m → ∃ k ∈ cs, k.head? = some m ∧ k.Perm (g.nodes.filter fun a => classOf cs a = m) := by
    intro m h hc
    obtain ⟨k, h1, h2⟩ := hin m h
    have h3 := classOf_head hrefl hsymm hg h1 h2
    rw [hc] at h3
    refine ⟨k, h1, h3, ?_⟩
    refine (List.perm_ext_iff_of_nodup ?_ (hw.nodup.filter _)).2 ?_
    · have := (hg.perm.nodup_iff).2 hw.nodup
      exact (List.nodup_flatten.1 this).1 k h1
    · intro a
      rw [List.mem_filter, decide_eq_true_eq]
      constructor
      · intro hak
        have := classOf_head hrefl hsymm hg h1 hak
        rw [h3] at this
        exact ⟨hout k h1 a hak, (Option.some.inj this).symm⟩
      · rintro ⟨han, hca⟩
        obtain ⟨k', h1', h2'⟩ := hin a han
        have := classOf_head hrefl hsymm hg h1' h2'
        rw [hca] at this
        rw [class_unique hrefl hsymm hg h1 h1' h2 (List.mem_of_mem_head? this)]
        exact h2'
  generalize hR : fused g o vop addr cs = R at *
  have hRout : ∀ k ∈ cs, ∀ m, k.head? = some m → R.out m = fusedEdges o (classOf cs) addr (k.map g.out) := by
    intro k h1 m h2
    rw [← hR]
    show (match cs.find? fun k => decide (k.head? = some m) with
      | none => g.out m
      | some k => fusedEdges o (classOf cs) addr (k.map g.out)) = _
    rw [class_head hrefl hsymm hg h1 h2]
  have hRvertex : ∀ k ∈ cs, ∀ m, k.head? = some m → R.vertex m = vop.elim (g.vertex m) (· k) := by
    intro k h1 m h2
    rw [← hR]
    show composite g.vertex vop cs m = _
    unfold composite
    cases vop with
    | none => rfl
    | some f => simp only; rw [class_head hrefl hsymm hg h1 h2]; rfl
  have hRbase : R.base = g.base := by rw [← hR]; rfl
  have hreach : ∀ m, Reaches (R.next false) g.base m → m ∈ g.nodes ∧ classOf cs m = m := by
    intro m h
    induction h with
    | refl => exact ⟨hbase, hclsb⟩
    | tail _ hs ih =>
      rename_i a b _
      obtain ⟨k, h1, h2, -⟩ := hrep a ih.1 ih.2
      have hs' : b ∈ (R.out a).map Prod.snd := hs
      rw [hRout k h1 a h2, (fused_spec he hh ha (classOf cs) _).dest] at hs'
      obtain ⟨e, h3, rfl⟩ := hs'
      obtain ⟨es, h4, h5⟩ := survivors_mem.1 h3
      obtain ⟨q, h6, rfl⟩ := List.mem_map.1 h4
      have := hnext q (hout k h1 q h6) e h5
      exact ⟨(hcls _ this).1, hidem _ this⟩
  refine ⟨fun m h => (hreach m h).1, fun ms hcov => ?_⟩
  have hnodes : ∀ m, m ∈ ms ↔ Reaches (R.next false) g.base m := hcov.mem
  refine ⟨hcls, hsame, ?_, ⟨?_, ?_⟩, ?_, ?_, ?_⟩
  · rw [hclsb]; exact hRbase
  · exact hcov.nodup
  · intro m
    show _ ↔ Reaches (R.next false) R.base m
    rw [hRbase]; exact hnodes m
  · intro m h; exact hreach m ((hnodes m).1 h)
  · intro hp a h
    refine (hnodes _).2 ?_
    have h' := (hw.reach a).1 h
    clear h
    induction h' with
    | refl => rw [hclsb]
    | tail hp' hs ih =>
      rename_i a b
      have han := (hw.reach a).2 hp'
      refine ih.tail ?_
      obtain ⟨e, h1, rfl⟩ := List.mem_map.1 hs
      obtain ⟨k, h2, h3⟩ := hin a han
      have h4 := classOf_head hrefl hsymm hg h2 h3
      show _ ∈ (R.out _).map Prod.snd
      rw [hRout k h2 _ h4, (fused_spec he hh ha (classOf cs) _).dest]
      exact ⟨e, survivors_mem.2 hp ⟨_, List.mem_map.2 ⟨a, h3, rfl⟩, h1⟩, rfl⟩
  · intro m h
    obtain ⟨h1, h2⟩ := hreach m ((hnodes m).1 h)
    obtain ⟨k, h3, h4, h5⟩ := hrep m h1 h2
    refine ⟨k, h5, h4, hRvertex k h3 m h4, ?_⟩
    show IsFused o (classOf cs) _ (R.out m)
    rw [hRout k h3 m h4]
    exact fused_spec he hh ha _ _

theorem covers_of [DecidableEq N] {next : N → List N} {a : N} {ms : List N} (hd : ms.Nodup) (hm : ∀ m, Reaches next a m → m ∈ ms) :
    ∃ cs, Covers next a cs := by
  classical
  refine ⟨ms.filter fun m => decide (Reaches next a m), hd.filter _, fun m => ?_⟩
  rw [List.mem_filter, decide_eq_true_eq]
  exact ⟨fun h => h.2, fun h => ⟨hm m h, h⟩⟩

section Whole

open Partition

variable {X : Type} [DecidableEq N] [DecidableEq X] {g : Gr N V L} {c : Classifier N X} {val : N → Option X}
  {same : Option X → Option X → Bool} {o : EdgeOps N L} {addr : N → Nat} {vop : Option (List N → V)}

/-- The classes after vertices are merged. -/
theorem grouped (hw : g.WF) {prop : N → Option X} (heq : ∀ t x y, c.equal t x y = (same x y, 0)) (hs : IsEquality same)
    (hh : HashRespects c.hash same) {hn : 0 < n} {y : State n N (Trav.Job n N (Mem n N))}
    (hy : Net.Reach (task g prop c.hash c.equal hn) g.base start y) (hd : y.main = .done) (hk : y.g.killed = 0) :
    (∀ i, y.g.err i = 0) ∧ IsGrouping (fun a b => same (prop a) (prop b) = true) g.nodes (classes prop c.hash y.g) ∧
    ∀ k ∈ classes prop c.hash y.g, g.base ∈ k → k.head? = some g.base := by
  have hi := inv_reach heq hs _ (reach_bag hn hy)
  obtain ⟨h1, h2⟩ := classes_grouping hs hh hi
  exact ⟨hi.noErr, grouping_perm h1 (Trav.done_perm hy hd hk hi.noErr ⟨hw.nodup, hw.reach⟩), h2⟩

/-- The result is a quotient for the properties there are. -/
theorem merges_quotient (hw : g.WF) (heq : ∀ t x y, c.equal t x y = (same x y, 0)) (hs : IsEquality same)
    (hh : HashRespects c.hash same) (hl : IsEquality o.eq) (hlh : HashRespects o.hash o.eq) (ha : Function.Injective addr) {hn : 0 < n}
    {x : Trav.Job n N (Partition.Mem N X)} {R : Gr N V L} (hR : Merges g c o vop addr hn x R) :
    ∃ cls, IsQuotient g R (fun a b => same (x.mem.prop a) (x.mem.prop b) = true) o vop cls := by
  obtain ⟨-, y, hy, hyd, -, hyk, -, z, hz, hzd, hze, hzk, rfl⟩ := hR
  obtain ⟨-, h1, h2⟩ := grouped hw heq hs hh hy hyd hyk
  obtain ⟨h3, h4⟩ := quotient_core (fun a => hs.refl _) (fun a b h => hs.symm _ _ h) hw hl hlh ha vop h1 h2
  obtain ⟨ms, hms⟩ := covers_of hw.nodup h3
  have hp := Trav.done_perm hz hzd hzk hze hms
  exact ⟨_, h4 _ ⟨hp.nodup_iff.2 hms.nodup, fun m => by rw [hp.mem_iff, hms.mem]⟩⟩

/-- **C33.** If the operation isn't killed while properties are set, then whatever the schedule, the graph returned by `cru_merged` is
the given graph with the vertices merged whose properties are equal. -/
theorem C33_quotient (hw : g.WF) (hmap : ∀ t m, c.map t m = (val m, 0)) (heq : ∀ t x y, c.equal t x y = (same x y, 0))
    (hs : IsEquality same) (hh : HashRespects c.hash same) (hl : IsEquality o.eq) (hlh : HashRespects o.hash o.eq)
    (ha : Function.Injective addr) {hn : 0 < n} {x : State n N (Trav.Job n N (Partition.Mem N X))} (hx : Sets g c addr hn x)
    (hk : x.g.killed = 0) {R : Gr N V L} (hR : Merges g c o vop addr hn x.g R) :
    ∃ cls, IsQuotient g R (fun a b => same (val a) (val b) = true) o vop cls := by
  obtain ⟨hi, -⟩ := set_inv hmap _ (reach_bag hn hx.1)
  have hp := Trav.done_perm hx.1 hx.2 hk hi.noErr ⟨hw.nodup, hw.reach⟩
  have hval : ∀ a ∈ g.nodes, x.g.mem.prop a = val a := by
    intro a ha
    obtain ⟨i, -, h⟩ := List.mem_flatMap.1 (hp.mem_iff.2 ha)
    exact hi.set i a h
  obtain ⟨cls, h⟩ := merges_quotient hw heq hs hh hl hlh ha hR
  refine ⟨cls, ?_, ?_, h.base, h.wf, h.nodes, h.all, h.content⟩
  · intro a ha
    obtain ⟨h1, h2⟩ := h.member a ha
    rw [hval a ha, hval _ h1] at h2
    exact ⟨h1, h2⟩
  · intro a ha b hb hr
    exact h.same a ha b hb (by rw [hval a ha, hval b hb]; exact hr)

/-- A phase ends. -/
def Ends {n : Nat} {Q G E : Type} (T : Task n Q G E) (a : Q) (g₀ : G) : Prop :=
  ∀ f : Nat → State n Q G, Net.Reach T a g₀ (f 0) →
    ¬ ∀ j, step T a .main (f j) = some (f (j + 1)) ∨ ∃ i, step T a (.worker i) (f j) = some (f (j + 1))

theorem merges_exists (hw : g.WF) (heq : ∀ t x y, c.equal t x y = (same x y, 0)) (hs : IsEquality same) (hh : HashRespects c.hash same)
    (hl : IsEquality o.eq) (hlh : HashRespects o.hash o.eq) (ha : Function.Injective addr) (hn : 0 < n) (f : List N → V)
    {x : Trav.Job n N (Partition.Mem N X)} (hx : ∀ i, x.err i = 0) : ∃ R, Merges g c o (some f) addr hn x R := by
  obtain ⟨y, hy, hyd, hyk⟩ := (Trav.ends (visit x.mem.prop c.hash c.equal) (fun m => c.hash (x.mem.prop m)) hn
    (next := g.next false) (a := g.base) ⟨fun _ _ => [], 0⟩ (fun m h => (hw.reach m).2 h)).2
  obtain ⟨h0, h1, h2⟩ := grouped hw heq hs hh hy hyd hyk
  obtain ⟨h3, -⟩ := quotient_core (fun a => hs.refl _) (fun a b h => hs.symm _ _ h) hw hl hlh ha (some f) h1 h2
  obtain ⟨z, hz, hzd, hzk⟩ := (Trav.ends (fun _ _ _ => ((), 0)) (fun m => c.hash (x.mem.prop m)) hn
    (next := (fused g o (some f) addr (classes x.mem.prop c.hash y.g)).next false) (a := g.base) () h3).2
  have hze : ∀ i, z.g.err i = 0 := by
    have := Trav.induct (motive := fun _ err _ => ∀ i, err i = 0) (fun _ => rfl) (by
      intro seen err mem m h _ _ _ i
      by_cases hj : i = Build.lane hn (c.hash (x.mem.prop m))
      · subst hj; rw [Function.update_self]
      · rw [Function.update_of_ne hj]; exact h i) _ (reach_bag hn hz)
    exact this
  exact ⟨_, hx, y, hy, hyd, h0, hyk, (by rintro ⟨⟩), z, hz, hzd, hze, hzk, rfl⟩

/-- **C33.** With a vertex operation, a graph is returned if the operation isn't killed: no phase goes on forever. -/
theorem C33_terminates (hw : g.WF) (hmap : ∀ t m, c.map t m = (val m, 0)) (heq : ∀ t x y, c.equal t x y = (same x y, 0))
    (hs : IsEquality same) (hh : HashRespects c.hash same) (hl : IsEquality o.eq) (hlh : HashRespects o.hash o.eq)
    (ha : Function.Injective addr) (hn : 0 < n) (f : List N → V) :
    Ends (setTask g c.map addr hn) g.base (Trav.start clear) ∧
    (∀ prop : N → Option X, Ends (task g prop c.hash c.equal hn) g.base start) ∧
    (∀ (prop : N → Option X) (y : State n N (Trav.Job n N (Mem n N))), Net.Reach (task g prop c.hash c.equal hn) g.base start y →
      y.main = .done → y.g.killed = 0 →
      Ends (pruning (fused g o (some f) addr (classes prop c.hash y.g)) prop c.hash hn) g.base (Trav.start ())) ∧
    ∃ x R, Sets g c addr hn x ∧ x.g.killed = 0 ∧ Merges g c o (some f) addr hn x.g R := by
  have h1 := Trav.ends (fun _ : Fin n => setOne c.map) addr hn (next := g.next false) (a := g.base) clear (fun m h => (hw.reach m).2 h)
  refine ⟨h1.1, fun prop => ?_, fun prop y hy hd hk => ?_, ?_⟩
  · exact (Trav.ends (visit prop c.hash c.equal) (fun m => c.hash (prop m)) hn
      (next := g.next false) (a := g.base) ⟨fun _ _ => [], 0⟩ (fun m h => (hw.reach m).2 h)).1
  · obtain ⟨h0, h2, h3⟩ := grouped hw heq hs hh hy hd hk
    exact (Trav.ends (fun _ _ _ => ((), 0)) (fun m => c.hash (prop m)) hn (a := g.base) ()
      (quotient_core (fun a => hs.refl _) (fun a b h => hs.symm _ _ h) hw hl hlh ha (some f) h2 h3).1).1
  · obtain ⟨x, hx, hd, hk⟩ := h1.2
    obtain ⟨hi, -⟩ := set_inv (g := g) (addr := addr) hmap (hn := hn) _ (reach_bag hn hx)
    obtain ⟨R, hR⟩ := merges_exists hw heq hs hh hl hlh ha hn f hi.noErr
    exact ⟨x, R, ⟨hx, hd⟩, hk, hR⟩

/-- **C65.** A kill can be lost.  For any graph with at least `31 * n + 2` vertices whose properties are unequal and non-null, on
`n` lanes, there's an execution of `cru_merged` in which the switch is used while properties are being set, but which ends without
an error, with a graph that has fewer vertices, some of which stand for classes with unequal properties. -/
theorem C65_kill_lost (hw : g.WF) (hmap : ∀ t m, c.map t m = (val m, 0)) (heq : ∀ t x y, c.equal t x y = (same x y, 0))
    (hs : IsEquality same) (hh : HashRespects c.hash same) (hl : IsEquality o.eq) (hlh : HashRespects o.hash o.eq)
    (ha : Function.Injective addr) (hn : 0 < n) (f : List N → V) (hlarge : 31 * n + 2 ≤ g.nodes.length)
    (hv : g.nodes.Pairwise fun a b => same (val a) (val b) = false) :
    ∃ x R, Sets g c addr hn x ∧ x.g.killed ≠ 0 ∧ Merges g c o (some f) addr hn x.g R ∧ R.nodes.length < g.nodes.length ∧
      ∃ cls, IsQuotient g R (fun a b => same (x.g.mem.prop a) (x.g.mem.prop b) = true) o (some f) cls ∧
        ∃ a ∈ g.nodes, ∃ b ∈ g.nodes, same (val a) (val b) = false ∧ cls a = cls b := by
  obtain ⟨x, hx, hdone, hfew, hk⟩ := Trav.killed_few (fun _ : Fin n => setOne c.map) addr hn (next := g.next false) (a := g.base) clear
    (fun m h => (hw.reach m).2 h) (fun s => s.killed ≠ 0) Nat.one_ne_zero (by
      intro i s m h
      simp only [Trav.handle]
      obtain ⟨sample, stop, e, -⟩ := Trav.poll_eq s i
      rw [e]
      split_ifs <;> exact h)
  obtain ⟨hi, -⟩ := set_inv (g := g) (addr := addr) hmap (hn := hn) _ (reach_bag hn hx)
  obtain ⟨a, ha', b, hb, hab, hna, hnb⟩ := Trav.two_unvisited hfew hw.nodup hlarge
  have hpa := hi.unset a hna
  have hpb := hi.unset b hnb
  obtain ⟨R, hR⟩ := merges_exists hw heq hs hh hl hlh ha hn f hi.noErr
  obtain ⟨cls, hq⟩ := merges_quotient hw heq hs hh hl hlh ha hR
  have hsame := hq.same a ha' b hb (by
    show same (x.g.mem.prop a) (x.g.mem.prop b) = true
    rw [show x.g.mem.prop a = none from hpa, show x.g.mem.prop b = none from hpb]; exact hs.refl _)
  refine ⟨x, R, ⟨hx, hdone⟩, hk, hR, ?_, cls, hq, a, ha', b, hb, Partition.pairwise_ne hs hv ha' hb hab, hsame⟩
  have hsub : R.nodes.Subperm g.nodes := hq.wf.nodup.subperm fun m hm => (hq.nodes m hm).1
  refine lt_of_le_of_ne hsub.length_le fun hlen => ?_
  have hperm := hsub.perm_of_length_le (le_of_eq hlen.symm)
  have h1 := (hq.nodes a (hperm.mem_iff.2 ha')).2
  have h2 := (hq.nodes b (hperm.mem_iff.2 hb)).2
  rw [h1, h2] at hsame
  exact hab hsame

end Whole

/-! Demonstration: the vertices of a graph merged according to whether they're odd, and adding up labels. -/

def parity : Partition.Classifier Nat Nat where
  map _ m := (some (m % 2), 0)
  hash := fun x => x.getD 0
  equal _ x y := (decide (x = y), 0)
  destroy _ _ := 0

def adding : EdgeOps Nat Nat where
  hash := id
  eq a b := decide (a = b)
  pruner := none
  red := some fun es => (es.map Prod.fst).sum

theorem decide_equality {α : Type} [DecidableEq α] : IsEquality fun a b : α => decide (a = b) :=
  ⟨by simp, by simp +contextual, by simp +contextual⟩

theorem decide_respects {α : Type} [DecidableEq α] (h : α → Nat) : HashRespects h fun a b : α => decide (a = b) := by
  intro a b hab; simp at hab; rw [hab]

/-- Non-vacuity: on three lanes there's a result, with two vertices. -/
example : ∃ x R, Partition.Sets Count.demo parity id (show 0 < 3 by decide) x ∧ x.g.killed = 0 ∧
    Merges Count.demo parity adding (some List.sum) id (show 0 < 3 by decide) x.g R ∧ R.nodes.length = 2 := by
  obtain ⟨-, -, -, x, R, h1, h2, h3⟩ := C33_terminates (g := Count.demo) (c := parity) (o := adding) (addr := id)
    (val := fun m => some (m % 2)) Count.demo_wf (fun _ _ => rfl) (fun _ _ _ => rfl) decide_equality (decide_respects _)
    decide_equality (decide_respects _) (fun _ _ h => h) (show 0 < 3 by decide) List.sum
  refine ⟨x, R, h1, h2, h3, ?_⟩
  obtain ⟨cls, hq⟩ := C33_quotient (val := fun m => some (m % 2)) Count.demo_wf (fun _ _ => rfl) (fun _ _ _ => rfl) decide_equality
    (decide_respects _) decide_equality (decide_respects _) (fun _ _ h => h) h1 h2 h3
  have hn : ∀ m, m ∈ Count.demo.nodes ↔ m < 4 := by intro m; simp [Count.demo]; omega
  have hrel : ∀ m < 4, cls m < 4 ∧ cls m % 2 = m % 2 := by
    intro m hm
    have := hq.member m ((hn m).2 hm)
    have h2 : m % 2 = cls m % 2 := by simpa using this.2
    exact ⟨(hn _).1 this.1, h2.symm⟩
  have h02 : cls 0 = cls 2 := hq.same 0 (by decide) 2 (by decide) (by decide)
  have h13 : cls 1 = cls 3 := hq.same 1 (by decide) 3 (by decide) (by decide)
  have hperm : R.nodes.Perm [cls 0, cls 1] := by
    refine (List.perm_ext_iff_of_nodup hq.wf.nodup ?_).2 fun m => ⟨fun hm => ?_, fun hm => ?_⟩
    · have := (hrel 0 (by decide)).2
      have := (hrel 1 (by decide)).2
      simp; omega
    · obtain ⟨h4, h5⟩ := hq.nodes m hm
      have : m = 0 ∨ m = 1 ∨ m = 2 ∨ m = 3 := by have := (hn m).1 h4; omega
      simp only [List.mem_cons, List.not_mem_nil, or_false]
      rcases this with rfl | rfl | rfl | rfl <;> omega
    · simp only [List.mem_cons, List.not_mem_nil, or_false] at hm
      rcases hm with rfl | rfl
      · exact hq.all rfl 0 (by decide)
      · exact hq.all rfl 1 (by decide)
  simpa using hperm.length_eq

/-- Non-vacuity of C65: a chain of forty vertices on one lane. -/
example : ∃ x R, Partition.Sets Partition.chain Partition.itself id (show 0 < 1 by decide) x ∧ x.g.killed ≠ 0 ∧
    Merges Partition.chain Partition.itself adding (some List.sum) id (show 0 < 1 by decide) x.g R ∧
    R.nodes.length < Partition.chain.nodes.length := by
  obtain ⟨x, R, h1, h2, h3, h4, -⟩ := C65_kill_lost (val := some) (o := adding) (addr := id) Partition.chain_wf (fun _ _ => rfl) (fun _ _ _ => rfl) Partition.itself_equality
    Partition.itself_respects decide_equality (decide_respects _) (fun _ _ h => h) (show 0 < 1 by decide) List.sum
    (by simp [Partition.chain]) (List.Pairwise.imp (fun h => by simpa using h) Partition.chain_wf.nodup)
  exact ⟨x, R, h1, h2, h3, h4⟩

end Cru.Merge
