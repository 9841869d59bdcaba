import Verif.Spec.Postpone
import Verif.Proofs.Rover
import Verif.Proofs.Trav
import Verif.Proofs.Compose
import Mathlib.Tactic.Abel

/-! # Postponing edges: lemmas -/

namespace Cru.Postpone

open Net

variable {n : Nat} {N V L : Type} [DecidableEq N]

theorem bipartition_eq (p : Postponer V L) (v : N → Option V) (m : N) (es : List (L × N)) :
    bipartition p v m es = (es.filter (fun e => decide (e.2 = m)), (es.filter (stationary p v m)).reverse,
      (es.filter (movable p v m)).reverse) := by
  have : ∀ (es : List (L × N)) b, es.foldl (bipartitionOne p v m) b =
      (b.1 ++ es.filter (fun e => decide (e.2 = m)), (es.filter (stationary p v m)).reverse ++ b.2.1,
        (es.filter (movable p v m)).reverse ++ b.2.2) := by
    intro es
    induction es with
    | nil => intro b; simp
    | cons e es ih =>
      intro b
      rw [List.foldl_cons, ih]
      by_cases h1 : e.2 = m
      · simp [bipartitionOne, h1, stationary, movable]
      · by_cases h2 : p.postponable (v m) e.1 (v e.2) = true
        · simp [bipartitionOne, h1, stationary, movable, h2]
        · simp [bipartitionOne, h1, stationary, movable, h2]
  rw [bipartition, this]; simp

theorem postpone_fold (p : Postponer V L) (st : List (L × N)) (mv : List (L × N)) : ∀ s : List (L × N) × List (N × (L × N)),
    mv.foldl (postponeOne p st) s = ((mv.filter fun l => (postponed p l st).isEmpty).reverse ++ s.1,
      s.2 ++ mv.flatMap fun l => postponed p l st) := by
  induction mv with
  | nil => intro s; simp
  | cons l mv ih =>
    intro s
    rw [List.foldl_cons, ih]
    by_cases h : (postponed p l st).isEmpty = true
    · have h' : postponed p l st = [] := List.isEmpty_iff.1 h
      simp [postponeOne, h']
    · simp [postponeOne, h]

theorem stationary_movable {p : Postponer V L} {v : N → Option V} {m : N} {e : L × N} (h : stationary p v m e = true) :
    movable p v m e = false := by
  simp only [stationary, movable, Bool.and_eq_true, Bool.and_eq_false_iff] at *
  exact .inr (by simpa using h.2)

theorem gone_false {p : Postponer V L} {v : N → Option V} {m : N} {es : List (L × N)} {l : L × N} (h : movable p v m l = false) :
    gone p v m es l = false := by simp [gone, h]

/-- The edges kept by `postpone`. -/
theorem postpone_kept (p : Postponer V L) (v : N → Option V) (m : N) (es : List (L × N)) :
    (postpone p v m es).1.Perm (es.filter fun l => !gone p v m es l) := by
  have hsplit : ∀ f : L × N → Bool, (es.filter f).Perm (es.filter (fun e => f e && decide (e.2 = m)) ++
      (es.filter (fun e => f e && movable p v m e) ++ es.filter (fun e => f e && stationary p v m e))) := by
    intro f
    generalize es = es
    induction es with
    | nil => simp
    | cons e es ih =>
      by_cases hf : f e = true
      · by_cases h1 : e.2 = m
        · have h3 : movable p v m e = false := by simp [movable, h1]
          have h4 : stationary p v m e = false := by simp [stationary, h1]
          simp only [List.filter_cons, hf, h1, h3, h4]
          simpa using ih
        · by_cases h2 : p.postponable (v m) e.1 (v e.2) = true
          · have h3 : movable p v m e = true := by simp [movable, h1, h2]
            have h4 : stationary p v m e = false := by simp [stationary, h2]
            simp only [List.filter_cons, hf, h1, h3, h4]
            simpa using (ih.cons e).trans List.perm_middle.symm
          · have h3 : movable p v m e = false := by simp [movable, h2]
            have h4 : stationary p v m e = true := by simp [stationary, h1, h2]
            simp only [List.filter_cons, hf, h1, h3, h4]
            have h5 := ih.cons e
            rw [← List.append_assoc] at h5
            simpa using h5.trans List.perm_middle.symm
      · simp only [List.filter_cons, hf]
        simpa using ih
  simp only [postpone]
  split_ifs with h1 h2
  · -- at most one edge
    have : ∀ l ∈ es, gone p v m es l = false := by
      intro l hl
      by_contra hg
      simp only [gone, Bool.not_eq_false, Bool.and_eq_true, List.any_eq_true] at hg
      obtain ⟨hm, e, he, hst, -⟩ := hg
      rcases es with _ | ⟨a, _ | ⟨b, es⟩⟩
      · cases hl
      · rw [List.mem_singleton.1 hl] at hm
        rw [List.mem_singleton.1 he] at hst
        rw [stationary_movable hst] at hm; cases hm
      · simp at h1; omega
    rw [List.filter_eq_self.2 fun l hl => by simp [this l hl]]
  · rw [bipartition_eq] at h2 ⊢
    simp only [List.isEmpty_iff, List.reverse_eq_nil_iff] at h2 ⊢
    have hg : ∀ l, gone p v m es l = false := by
      intro l
      by_contra hg
      simp only [gone, Bool.not_eq_false, Bool.and_eq_true, List.any_eq_true] at hg
      obtain ⟨hm, e, he, hst, -⟩ := hg
      have : e ∈ es.filter (stationary p v m) := List.mem_filter.2 ⟨he, hst⟩
      rw [h2] at this; cases this
    refine List.Perm.trans ?_ (hsplit _).symm
    simp only [hg, Bool.not_false, Bool.true_and]
    rw [h2, List.append_nil]
    exact List.Perm.append_left _ (List.reverse_perm _)
  · rw [bipartition_eq, postpone_fold]
    refine List.Perm.trans ?_ (hsplit _).symm
    have e1 : es.filter (fun e => !gone p v m es e && decide (e.2 = m)) = es.filter (fun e => decide (e.2 = m)) := by
      refine List.filter_congr fun e _ => ?_
      by_cases h : e.2 = m
      · simp [gone, movable, h]
      · simp [h]
    have e2 : es.filter (fun e => !gone p v m es e && stationary p v m e) = es.filter (stationary p v m) := by
      refine List.filter_congr fun e _ => ?_
      by_cases h : stationary p v m e = true
      · simp [gone_false (stationary_movable h), h]
      · simp [h]
    have e3 : es.filter (fun e => !gone p v m es e && movable p v m e) =
        (es.filter (movable p v m)).filter fun l => (postponed p l (es.filter (stationary p v m)).reverse).isEmpty := by
      rw [List.filter_filter]
      refine List.filter_congr fun l _ => ?_
      by_cases h : movable p v m l = true
      · have : (postponed p l (es.filter (stationary p v m)).reverse).isEmpty = !gone p v m es l := by
          rw [Bool.eq_iff_iff, List.isEmpty_iff, postponed, List.map_eq_nil_iff, List.filter_eq_nil_iff]
          simp [gone, h]
        rw [this]
      · simp [h]
    rw [e1, e2, e3]
    simp only []
    rw [← List.append_assoc]
    refine List.Perm.append ?_ (List.reverse_perm _)
    refine (List.perm_append_comm).trans (List.Perm.append_left _ ?_)
    rw [List.filter_reverse, List.reverse_reverse]

/-- The edges sent by `postpone`. -/
theorem postpone_sent (p : Postponer V L) (v : N → Option V) (m : N) (es : List (L × N)) :
    (postpone p v m es).2.Perm (created p v m es) := by
  have hnil : (∀ l ∈ es, ∀ e ∈ es, movable p v m l = true → stationary p v m e = true → False) → created p v m es = [] := by
    intro h
    simp only [created, List.flatMap_eq_nil_iff, List.mem_filter, List.map_eq_nil_iff, List.filter_eq_nil_iff]
    rintro l ⟨hl, hm⟩ e he hst
    simp only [Bool.and_eq_true] at hst
    exact h l hl e he hm hst.1
  simp only [postpone]
  split_ifs with h1 h2
  · rw [hnil]
    intro l hl e he hm hst
    rcases es with _ | ⟨a, _ | ⟨b, es⟩⟩
    · cases hl
    · rw [List.mem_singleton.1 hl] at hm
      rw [List.mem_singleton.1 he] at hst
      rw [stationary_movable hst] at hm; cases hm
    · simp at h1; omega
  · rw [bipartition_eq] at h2
    simp only [List.isEmpty_iff, List.reverse_eq_nil_iff] at h2
    rw [hnil]
    intro l hl e he hm hst
    have : e ∈ es.filter (stationary p v m) := List.mem_filter.2 ⟨he, hst⟩
    rw [h2] at this; cases this
  · rw [bipartition_eq, postpone_fold]
    simp only [List.nil_append]
    refine (List.Perm.flatMap_right _ (List.reverse_perm _)).trans ?_
    refine List.Perm.flatMap_left _ fun l _ => ?_
    simp only [postponed]
    refine List.Perm.map _ ?_
    rw [List.filter_reverse, List.filter_filter]
    refine (List.reverse_perm _).trans ?_
    exact List.Perm.of_eq (List.filter_congr fun e _ => Bool.and_comm _ _)

/-- The node a packet asks to visit. -/
def Pkt.node : Pkt N L → Option N
  | .visit m => some m
  | .attach _ _ => none

omit [DecidableEq N] in
theorem filterMap_packets (a : List (L × N)) (b : List (N × (L × N))) :
    ((a.map fun e => (Pkt.visit e.2 : Pkt N L)) ++ b.map fun a => Pkt.attach a.1 a.2).filterMap Pkt.node = a.map (·.2) := by
  induction a with
  | nil =>
    rw [List.filterMap_eq_nil_iff.2]
    · rfl
    · intro q hq
      simp only [List.map_nil, List.nil_append, List.mem_map] at hq
      obtain ⟨c, -, rfl⟩ := hq
      rfl
  | cons e a ih => simpa [Pkt.node] using ih

/-- `postponing_task` traverses the graph as it is at the beginning. -/
def postponingRover (p : Postponer V L) (addr : N → Nat) (hn : 0 < n) (M : Mem N V L) :
    Rover (postponing p addr hn) (fun m => (M.out m).map (·.2)) where
  I s := s.mem.vertex = M.vertex ∧
    ∀ m, (m ∈ s.seen (Build.lane hn (addr m)) → s.mem.out m = (postpone p M.vertex m (M.out m)).1) ∧
      (m ∉ s.seen (Build.lane hn (addr m)) → s.mem.out m = M.out m)
  node := Pkt.node
  weight _ := 1
  lane m := Build.lane hn (addr m)
  seen s := s.seen
  ok s i := s.stop i = false
  dest q m h := by
    cases q with
    | visit k => cases h; rfl
    | attach k e => cases h
  inv s q h := by
    cases q with
    | attach k e =>
      simp only [postponing, postponeIt, Pkt.receiver]
      obtain ⟨sample, stop, e', -⟩ := Trav.poll_eq s (Build.lane hn (addr k))
      rw [e']
      exact h
    | visit k =>
      simp only [postponing, postponeIt, Pkt.receiver]
      obtain ⟨sample, stop, e', -⟩ := Trav.poll_eq s (Build.lane hn (addr k))
      rw [e']
      split_ifs with c
      · exact h
      · rw [not_or] at c
        refine ⟨h.1, fun m => ?_⟩
        simp only
        by_cases hm : m = k
        · subst hm
          rw [Function.update_self, Function.update_self, h.1, (h.2 m).2 c.2]
          exact ⟨fun _ => rfl, fun h => absurd (by simp) h⟩
        · rw [Function.update_of_ne hm]
          by_cases hl : Build.lane hn (addr m) = Build.lane hn (addr k)
          · rw [hl, Function.update_self]
            have := h.2 m
            rw [hl] at this
            simpa [hm] using this
          · rw [Function.update_of_ne hl]
            exact h.2 m
  others s q j hj := by
    cases q with
    | attach k e =>
      have hj' : j ≠ Build.lane hn (addr k) := hj
      simp only [postponing, postponeIt, Pkt.receiver]
      obtain ⟨sample, stop, e', h1, -⟩ := Trav.poll_eq s (Build.lane hn (addr k))
      rw [e']
      exact ⟨rfl, fun h => by rw [← h1 j hj']; exact h⟩
    | visit k =>
      have hj' : j ≠ Build.lane hn (addr k) := hj
      simp only [postponing, postponeIt, Pkt.receiver]
      obtain ⟨sample, stop, e', h1, -⟩ := Trav.poll_eq s (Build.lane hn (addr k))
      rw [e']
      split_ifs
      · exact ⟨rfl, fun h => by rw [← h1 j hj']; exact h⟩
      · exact ⟨Function.update_of_ne hj' _ _, fun h => by rw [← h1 j hj']; exact h⟩
  undeferred s q := by
    cases q with
    | attach k e => rfl
    | visit k =>
      simp only [postponing, postponeIt]
      split_ifs <;> rfl
  mail s q h := by
    cases q with
    | visit k => cases h
    | attach k e =>
      simp only [postponing, postponeIt, Pkt.receiver]
      obtain ⟨sample, stop, e', -, h2, -⟩ := Trav.poll_eq s (Build.lane hn (addr k))
      rw [e']
      exact ⟨rfl, rfl, by simp, h2⟩
  step s q m hI h := by
    cases q with
    | attach k e => cases h
    | visit k =>
      cases h
      simp only [postponing, postponeIt, Pkt.receiver]
      obtain ⟨sample, stop, e', -, h2, -⟩ := Trav.poll_eq s (Build.lane hn (addr m))
      rw [e']
      split_ifs with c
      · refine .inl ⟨rfl, rfl, fun hs => ⟨h2 hs, ?_⟩⟩
        rcases c with c | c
        · simp only at c hs; rw [hs] at c; cases c
        · exact c
      · rw [not_or] at c
        have hm : s.mem.out m = M.out m := (hI.2 m).2 c.2
        refine .inr ⟨c.2, Function.update_self _ _ _, ?_, fun hs => ⟨h2 hs, ?_⟩⟩
        · rw [filterMap_packets, hm]; exact fun _ => id
        · rw [filterMap_packets, hm]; exact fun _ => id
  env e s := ⟨rfl, id, fun i h => h⟩

/-- The edges in a packet for `m`. -/
def Pkt.carries (m : N) : Pkt N L → Multiset (L × N)
  | .visit _ => 0
  | .attach k e => if k = m then {e} else 0

/-- The edges sent to `m` by visiting `o`. -/
def sends (p : Postponer V L) (M : Mem N V L) (m o : N) : Multiset (L × N) :=
  ((((postpone p M.vertex o (M.out o)).2.filter fun a => decide (a.1 = m)).map (·.2) : List (L × N)) : Multiset (L × N))

theorem carried (a : List (L × N)) (b : List (N × (L × N))) (m : N) :
    ((((a.map fun e => (Pkt.visit e.2 : Pkt N L)) ++ b.map fun a => Pkt.attach a.1 a.2).map (Pkt.carries m)).sum : Multiset (L × N)) =
      ((b.filter fun a => decide (a.1 = m)).map (·.2) : List (L × N)) := by
  have h1 : (((a.map fun e => (Pkt.visit e.2 : Pkt N L)).map (Pkt.carries m)).sum : Multiset (L × N)) = 0 := by
    rw [List.map_map]
    induction a with
    | nil => rfl
    | cons e a ih => rw [List.map_cons, List.sum_cons, ih]; rfl
  rw [List.map_append, List.sum_append, h1, zero_add]
  induction b with
  | nil => rfl
  | cons c b ih =>
    rw [List.map_cons, List.map_cons, List.sum_cons, ih]
    by_cases hc : c.1 = m
    · simp [Pkt.carries, hc]
    · simp [Pkt.carries, hc]

/-- The postponed edges of `m` are those sent to it. -/
theorem post_inv (p : Postponer V L) (addr : N → Nat) (hn : 0 < n) (M : Mem N V L) (m base : N) (h0 : M.post m = []) :
    ∀ x, Bag.Reach (postponing p addr hn) (.visit base) (Trav.start M) x →
      (x.1.mem.post m : Multiset (L × N)) + (x.2.map (Pkt.carries m)).sum =
        (((postponingRover p addr hn M).visited x.1).map (sends p M m)).sum := by
  refine (postponingRover p addr hn M).mail_inv (a := base) (fun s => (s.mem.post m : Multiset (L × N))) (Pkt.carries m) (sends p M m)
    (fun i => rfl) ⟨rfl, fun m => by simp [Trav.start]⟩ rfl (by simp [Trav.start, h0]) rfl (fun _ _ => rfl) ?_ ?_
  · intro s q hI hs
    cases q with
    | attach k e =>
      simp only [postponing, postponeIt, Pkt.receiver] at hs ⊢
      obtain ⟨sample, stop, e', -⟩ := Trav.poll_eq s (Build.lane hn (addr k))
      rw [e']
      by_cases hk : k = m
      · subst hk
        simp [Pkt.carries, add_comm]
      · simp [Pkt.carries, hk, Function.update_of_ne (Ne.symm hk)]
    | visit k =>
      simp only [postponing, postponeIt, Pkt.receiver, postponingRover] at hs ⊢
      obtain ⟨sample, stop, e', -⟩ := Trav.poll_eq s (Build.lane hn (addr k))
      rw [e'] at hs ⊢
      split_ifs at hs ⊢ with c
      · simp [Pkt.carries]
      · simp at hs
  · intro s q k hI hq hk hs
    cases q with
    | attach k e => cases hq
    | visit k' =>
      cases hq
      simp only [postponing, postponeIt, Pkt.receiver, postponingRover] at hs hI hk ⊢
      obtain ⟨sample, stop, e', -⟩ := Trav.poll_eq s (Build.lane hn (addr k))
      rw [e'] at hs ⊢
      split_ifs at hs ⊢ with c
      · exact absurd hs (by simp)
      · rw [carried, hI.1, (hI.2 k).2 hk]
        simp [Pkt.carries, sends]

/-- Whether absorbing the postponed edges of `m` counts as a change. -/
def Grew (eq : L → L → Bool) (addr : N → Nat) (M : Mem N V L) (m : N) : Prop :=
  M.post m ≠ [] ∧ (M.out m).length < (absorbed eq addr M m).length

/-- `absorbing_task` traverses the graph as it will be. -/
def absorbingRover (eq : L → L → Bool) (addr : N → Nat) (hn : 0 < n) (M : Mem N V L) :
    Rover (absorbing (V := V) eq addr hn) (fun m => (absorbed eq addr M m).map (·.2)) where
  I s := (∀ m, (m ∉ s.seen (Build.lane hn (addr m)) →
        s.mem.1.out m = M.out m ∧ s.mem.1.post m = M.post m ∧ s.mem.1.vertex m = M.vertex m) ∧
      (m ∈ s.seen (Build.lane hn (addr m)) →
        s.mem.1.out m = absorbed eq addr M m ∧ s.mem.1.post m = [] ∧ s.mem.1.vertex m = M.vertex m ∨
        s.mem.1.out m = M.out m ∧ s.mem.1.post m = M.post m ∧ s.mem.1.vertex m = none ∧ s.stop (Build.lane hn (addr m)) = true)) ∧
    (∀ i, s.mem.2 i = true → ∃ m ∈ s.seen i, Grew eq addr M m) ∧
    ∀ i, ∀ m ∈ s.seen i, Grew eq addr M m → s.mem.2 i = true ∨ s.stop i = true
  node := some
  weight _ := 1
  lane m := Build.lane hn (addr m)
  seen s := s.seen
  ok s i := s.stop i = false
  dest q m h := by cases h; rfl
  inv s k h := by
    simp only [absorbing, absorbIt]
    obtain ⟨sample, stop, e', h1, h2, -⟩ := Trav.poll_eq s (Build.lane hn (addr k))
    rw [e']
    have hst : ∀ i, s.stop i = true → stop i = true := by
      intro i hi
      by_cases hj : i = Build.lane hn (addr k)
      · subst hj
        by_contra hc
        have := h2 (by simpa using hc)
        rw [hi] at this; cases this
      · rw [h1 i hj]; exact hi
    split_ifs with c1 c2
    · refine ⟨fun m => ⟨(h.1 m).1, fun hm => ?_⟩, h.2.1, fun i m hm hg => ?_⟩
      · rcases (h.1 m).2 hm with h3 | h3
        · exact .inl h3
        · exact .inr ⟨h3.1, h3.2.1, h3.2.2.1, hst _ h3.2.2.2⟩
      · rcases h.2.2 i m hm hg with h3 | h3
        · exact .inl h3
        · exact .inr (hst i h3)
    · simp only at c1 c2
      refine ⟨fun m => ?_, fun i hi => ?_, fun i m hm hg => ?_⟩
      · simp only
        by_cases hm : m = k
        · subst hm
          rw [Function.update_self, Function.update_self]
          refine ⟨fun h => absurd (by simp) h, fun _ => .inr ?_⟩
          have := (h.1 m).1 c1
          exact ⟨this.1, this.2.1, rfl, c2⟩
        · rw [Function.update_of_ne hm]
          have h3 : m ∈ Function.update s.seen (Build.lane hn (addr k)) (s.seen (Build.lane hn (addr k)) ++ [k]) (Build.lane hn (addr m)) ↔
              m ∈ s.seen (Build.lane hn (addr m)) := by
            by_cases hl : Build.lane hn (addr m) = Build.lane hn (addr k)
            · rw [hl, Function.update_self]; simp [hm]
            · rw [Function.update_of_ne hl]
          rw [h3]
          refine ⟨(h.1 m).1, fun hm => ?_⟩
          rcases (h.1 m).2 hm with h3 | h3
          · exact .inl h3
          · exact .inr ⟨h3.1, h3.2.1, h3.2.2.1, hst _ h3.2.2.2⟩
      · obtain ⟨m, hm, hg⟩ := h.2.1 i hi
        refine ⟨m, ?_, hg⟩
        simp only
        by_cases hl : i = Build.lane hn (addr k)
        · subst hl; rw [Function.update_self]; simp [hm]
        · rw [Function.update_of_ne hl]; exact hm
      · simp only at hm ⊢
        by_cases hl : i = Build.lane hn (addr k)
        · subst hl; exact .inr c2
        · rw [Function.update_of_ne hl] at hm
          rcases h.2.2 i m hm hg with h3 | h3
          · exact .inl h3
          · exact .inr (hst i h3)
    · simp only at c1 c2
      have hk := (h.1 k).1 c1
      have hab : absorbed eq addr s.mem.1 k = absorbed eq addr M k := by simp only [absorbed, hk.1, hk.2.1]
      refine ⟨fun m => ?_, fun i hi => ?_, fun i m hm hg => ?_⟩
      · simp only
        by_cases hm : m = k
        · subst hm
          rw [Function.update_self, Function.update_self, Function.update_self]
          refine ⟨fun h => absurd (by simp) h, fun _ => .inl ?_⟩
          exact ⟨hab, rfl, hk.2.2⟩
        · rw [Function.update_of_ne hm, Function.update_of_ne hm]
          have h3 : m ∈ Function.update s.seen (Build.lane hn (addr k)) (s.seen (Build.lane hn (addr k)) ++ [k]) (Build.lane hn (addr m)) ↔
              m ∈ s.seen (Build.lane hn (addr m)) := by
            by_cases hl : Build.lane hn (addr m) = Build.lane hn (addr k)
            · rw [hl, Function.update_self]; simp [hm]
            · rw [Function.update_of_ne hl]
          rw [h3]
          refine ⟨(h.1 m).1, fun hm => ?_⟩
          rcases (h.1 m).2 hm with h3 | h3
          · exact .inl h3
          · exact .inr ⟨h3.1, h3.2.1, h3.2.2.1, hst _ h3.2.2.2⟩
      · simp only at hi ⊢
        by_cases hl : i = Build.lane hn (addr k)
        · subst hl
          rw [Function.update_self] at hi ⊢
          simp only [Bool.or_eq_true, Bool.and_eq_true, Bool.not_eq_true', decide_eq_true_eq] at hi
          rcases hi with hi | hi
          · obtain ⟨m, hm, hg⟩ := h.2.1 _ hi
            exact ⟨m, by simp [hm], hg⟩
          · refine ⟨k, by simp, ?_, ?_⟩
            · rw [← hk.2.1]; simpa using hi.1
            · rw [← hab, ← hk.1]; exact hi.2
        · rw [Function.update_of_ne hl] at hi ⊢
          exact h.2.1 i hi
      · simp only at hm ⊢
        by_cases hl : i = Build.lane hn (addr k)
        · subst hl
          rw [Function.update_self] at hm ⊢
          rcases List.mem_append.1 hm with hm | hm
          · rcases h.2.2 _ m hm hg with h3 | h3
            · exact .inl (by simp [h3])
            · exact absurd (hst _ h3) c2
          · rw [List.mem_singleton.1 hm] at hg
            refine .inl ?_
            have h4 : (s.mem.1.post k).isEmpty = false := by
              rw [hk.2.1]; simpa using hg.1
            have h5 := hg.2
            rw [← hab, ← hk.1] at h5
            simp [h4, h5]
        · rw [Function.update_of_ne hl] at hm ⊢
          rcases h.2.2 i m hm hg with h3 | h3
          · exact .inl h3
          · exact .inr (hst i h3)
  others s k j hj := by
    have hj' : j ≠ Build.lane hn (addr k) := hj
    simp only [absorbing, absorbIt]
    obtain ⟨sample, stop, e', h1, -⟩ := Trav.poll_eq s (Build.lane hn (addr k))
    rw [e']
    split_ifs
    · exact ⟨rfl, fun h => by rw [← h1 j hj']; exact h⟩
    · exact ⟨Function.update_of_ne hj' _ _, fun h => by rw [← h1 j hj']; exact h⟩
    · exact ⟨Function.update_of_ne hj' _ _, fun h => by rw [← h1 j hj']; exact h⟩
  undeferred s q := by
    simp only [absorbing, absorbIt]
    split_ifs <;> rfl
  mail s q h := by cases h
  step s k m hI h := by
    cases h
    simp only [absorbing, absorbIt]
    obtain ⟨sample, stop, e', -, h2, -⟩ := Trav.poll_eq s (Build.lane hn (addr k))
    rw [e']
    split_ifs with c1 c2
    · exact .inl ⟨rfl, rfl, fun hs => ⟨h2 hs, c1⟩⟩
    · refine .inr ⟨c1, Function.update_self _ _ _, by simp, fun hs => ?_⟩
      simp only at c2 hs
      rw [hs] at c2; cases c2
    · have hk := (hI.1 k).1 c1
      have hab : absorbed eq addr s.mem.1 k = absorbed eq addr M k := by simp only [absorbed, hk.1, hk.2.1]
      rw [hab]
      exact .inr ⟨c1, Function.update_self _ _ _, by simp, fun hs => ⟨h2 hs, by simp⟩⟩
  env e s := ⟨rfl, id, fun i h => h⟩

theorem absorbing_start (eq : L → L → Bool) (addr : N → Nat) (hn : 0 < n) (M : Mem N V L) :
    (absorbingRover eq addr hn M).I (Trav.start (M, fun _ => false)) :=
  ⟨fun m => ⟨fun _ => ⟨rfl, rfl, rfl⟩, fun h => absurd h (by simp [Trav.start])⟩, fun i h => absurd h (by simp [Trav.start]),
    fun i m h => absurd h (by simp [Trav.start])⟩

theorem postponing_start (p : Postponer V L) (addr : N → Nat) (hn : 0 < n) (M : Mem N V L) :
    (postponingRover p addr hn M).I (Trav.start M) :=
  ⟨rfl, fun m => ⟨fun h => absurd h (by simp [Trav.start]), fun _ => rfl⟩⟩

/-- Workers don't stop unless killed. -/
theorem postponing_stop {p : Postponer V L} {addr : N → Nat} {hn : 0 < n} {i₀ : Pkt N L} {M : Mem N V L} :
    ∀ x, Bag.Reach (postponing p addr hn) i₀ (Trav.start M) x → x.1.killed = 0 → ∀ i, x.1.stop i = false := by
  intro x hx
  induction hx with
  | init => intro _ i; rfl
  | step hr hs ih =>
    cases hs with
    | env e s m => intro h; exact absurd (show (1 : Nat) = 0 from h) (by decide)
    | handle s q rest =>
      have key : ∀ k : N, s.killed = 0 → ∀ j, (Trav.poll s (Build.lane hn (addr k))).stop j = false := by
        intro k hk j
        obtain ⟨sample, stop, e, h1, h2, h3⟩ := Trav.poll_eq s (Build.lane hn (addr k))
        rw [e]
        by_cases hj : j = Build.lane hn (addr k)
        · by_contra hs
          rw [hj] at hs
          rcases h3 (by simpa using hs) with h4 | h4
          · rw [ih hk] at h4; cases h4
          · exact h4 hk
        · exact (h1 j hj).trans (ih hk j)
      have hkl : ∀ k : N, (Trav.poll s (Build.lane hn (addr k))).killed = s.killed := by
        intro k
        obtain ⟨sample, stop, e, -⟩ := Trav.poll_eq s (Build.lane hn (addr k))
        rw [e]
      cases q with
      | attach k e =>
        simp only [postponing, postponeIt, Pkt.receiver]
        rw [hkl]; exact key k
      | visit k =>
        simp only [postponing, postponeIt, Pkt.receiver]
        split_ifs
        · rw [hkl]; exact key k
        · simp only; rw [hkl]; exact key k

theorem absorbing_stop {eq : L → L → Bool} {addr : N → Nat} {hn : 0 < n} {i₀ : N} {M : Mem N V L} :
    ∀ x, Bag.Reach (absorbing eq addr hn) i₀ (Trav.start (M, fun _ => false)) x → x.1.killed = 0 → ∀ i, x.1.stop i = false := by
  intro x hx
  induction hx with
  | init => intro _ i; rfl
  | step hr hs ih =>
    cases hs with
    | env e s m => intro h; exact absurd (show (1 : Nat) = 0 from h) (by decide)
    | handle s k rest =>
      have key : s.killed = 0 → ∀ j, (Trav.poll s (Build.lane hn (addr k))).stop j = false := by
        intro hk j
        obtain ⟨sample, stop, e, h1, h2, h3⟩ := Trav.poll_eq s (Build.lane hn (addr k))
        rw [e]
        by_cases hj : j = Build.lane hn (addr k)
        · by_contra hs
          rw [hj] at hs
          rcases h3 (by simpa using hs) with h4 | h4
          · rw [ih hk] at h4; cases h4
          · exact h4 hk
        · exact (h1 j hj).trans (ih hk j)
      have hkl : (Trav.poll s (Build.lane hn (addr k))).killed = s.killed := by
        obtain ⟨sample, stop, e, -⟩ := Trav.poll_eq s (Build.lane hn (addr k))
        rw [e]
      simp only [absorbing, absorbIt]
      split_ifs
      · rw [hkl]; exact key
      · simp only; rw [hkl]; exact key
      · simp only; rw [hkl]; exact key

/-! ## The end of each traversal -/

/-- The edges created at `m` by the nodes in `vis`. -/
def landed (p : Postponer V L) (g : Gr N V L) (vis : List N) (m : N) : List (L × N) :=
  ((vis.flatMap fun o => created p (fun m => some (g.vertex m)) o (g.out o)).filter fun a => decide (a.1 = m)).map (·.2)

theorem sends_sum (p : Postponer V L) (g : Gr N V L) (m : N) (vis : List N) :
    (vis.map (sends p (mem g) m)).sum = (landed p g vis m : Multiset (L × N)) := by
  induction vis with
  | nil => rfl
  | cons o vis ih =>
    rw [List.map_cons, List.sum_cons, ih]
    simp only [landed, sends, List.flatMap_cons, List.filter_append, List.map_append]
    rw [← Multiset.coe_add]
    congr 1
    rw [Multiset.coe_eq_coe]
    exact ((postpone_sent p _ o (g.out o)).filter _).map _

/-- What the graph is like when `vis` have been visited, before postponed edges are absorbed. -/
structure Half (p : Postponer V L) (g : Gr N V L) (vis : List N) (M : Mem N V L) : Prop where
  nodes : ∀ m ∈ vis, m ∈ g.nodes
  vertex : M.vertex = fun m => some (g.vertex m)
  seen : ∀ m ∈ vis, (M.out m).Perm (kept p g m)
  unseen : ∀ m, m ∉ vis → M.out m = g.out m
  post : ∀ m, (M.post m).Perm (landed p g vis m)

variable {p : Postponer V L} {eq : L → L → Bool} {addr : N → Nat} {hn : 0 < n} {g : Gr N V L}

theorem postponing_done (hw : g.WF) {x : State n (Pkt N L) (Trav.Job n N (Mem N V L))}
    (hx : Net.Reach (postponing p addr hn) (.visit g.base) (Trav.start (mem g)) x) (hd : x.main = .done) :
    Half p g ((postponingRover p addr hn (mem g)).visited x.g) x.g.mem ∧
    (x.g.killed = 0 → ((postponingRover p addr hn (mem g)).visited x.g).Perm g.nodes) := by
  have hb := Rover.done_bag hn hx hd
  have hi := Rover.inv_reach (W := postponingRover p addr hn (mem g)) (a := g.base) (fun i => rfl) (postponing_start p addr hn (mem g)) rfl _ hb
  have hmem : ∀ m, m ∈ (postponingRover p addr hn (mem g)).visited x.g ↔ m ∈ x.g.seen (Build.lane hn (addr m)) := by
    intro m
    rw [Rover.mem_visited]
    refine ⟨fun ⟨i, h⟩ => ?_, fun h => ⟨_, h⟩⟩
    have := hi.home i m h
    rw [← this] at h
    exact h
  refine ⟨⟨fun m hm => ?_, hi.I.1, fun m hm => ?_, fun m hm => ?_, fun m => ?_⟩, fun hk => ?_⟩
  · obtain ⟨i, h⟩ := Rover.mem_visited.1 hm
    exact (hw.reach m).2 (hi.reach i m h)
  · rw [(hi.I.2 m).1 ((hmem m).1 hm)]
    exact postpone_kept _ _ _ _
  · exact (hi.I.2 m).2 fun h => hm ((hmem m).2 h)
  · have h := post_inv p addr hn (mem g) m g.base rfl _ hb
    rw [sends_sum, Multiset.map_zero, Multiset.sum_zero, add_zero] at h
    exact Multiset.coe_eq_coe.1 h
  · exact (postponingRover p addr hn (mem g)).visited_perm hn (fun i => rfl) (postponing_start p addr hn (mem g)) rfl hx hd
      (fun i => postponing_stop _ hb hk i) hw.nodup (fun m => hw.reach m)

theorem absorbed_transversal (he : IsEquality eq) (ha : Function.Injective addr) (M : Mem N V L) (m : N) (h : M.post m ≠ []) :
    ∃ dropped, IsTransversal (Compose.Same eq) (M.post m ++ M.out m) (absorbed eq addr M m) dropped := by
  rw [absorbed, if_neg (by simpa using h)]
  exact Compose.dedup_transversal he ha _

theorem absorbed_next (he : IsEquality eq) (ha : Function.Injective addr) (M : Mem N V L) (m k : N) :
    k ∈ (absorbed eq addr M m).map (·.2) ↔ k ∈ (M.post m ++ M.out m).map (·.2) := by
  by_cases h : M.post m = []
  · simp [absorbed, h]
  · obtain ⟨d, ht⟩ := absorbed_transversal he ha M m h
    simp only [List.mem_map]
    constructor
    · rintro ⟨e, h1, h2⟩
      exact ⟨e, ht.perm.mem_iff.1 (List.mem_append_left _ h1), h2⟩
    · rintro ⟨e, h1, h2⟩
      obtain ⟨o, h3, h4⟩ := ht.covers e h1
      exact ⟨o, h3, h4.1.trans h2⟩

theorem mem_created {m : N} {es : List (L × N)} {v : N → Option V} {a : N × (L × N)} :
    a ∈ created p v m es ↔ ∃ l ∈ es, ∃ e ∈ es, movable p v m l = true ∧ stationary p v m e = true ∧ p.bpred l.1 e.1 = true ∧
      a = (e.2, (p.bop l.1 e.1, l.2)) := by
  simp only [created, List.mem_flatMap, List.mem_filter, List.mem_map, Bool.and_eq_true]
  constructor
  · rintro ⟨l, ⟨h1, h2⟩, e, ⟨h3, h4, h5⟩, h6⟩
    exact ⟨l, h1, e, h3, h2, h4, h5, h6.symm⟩
  · rintro ⟨l, h1, e, h3, h2, h4, h5, h6⟩
    exact ⟨l, ⟨h1, h2⟩, e, ⟨h3, h4, h5⟩, h6.symm⟩

theorem mem_landed {vis : List N} {m : N} {f : L × N} :
    f ∈ landed p g vis m ↔ ∃ o ∈ vis, (m, f) ∈ created p (fun m => some (g.vertex m)) o (g.out o) := by
  simp only [landed, List.mem_map, List.mem_filter, List.mem_flatMap, decide_eq_true_eq]
  constructor
  · rintro ⟨⟨a, b⟩, ⟨⟨o, h1, h2⟩, rfl⟩, rfl⟩
    exact ⟨o, h1, h2⟩
  · rintro ⟨o, h1, h2⟩
    exact ⟨(m, f), ⟨⟨o, h1, h2⟩, rfl⟩, rfl⟩

theorem stationary_kept {m : N} {e : L × N} (h : e ∈ g.out m) (hs : stationary p (fun m => some (g.vertex m)) m e = true) : e ∈ kept p g m :=
  List.mem_filter.2 ⟨h, by rw [gone_false (stationary_movable hs)]; rfl⟩

omit [DecidableEq N] in
theorem next_mem (hw : g.WF) {a : N} (h : a ∈ g.nodes) {e : L × N} (he : e ∈ g.out a) : e.2 ∈ g.nodes :=
  (hw.reach _).2 (((hw.reach _).1 h).tail (List.mem_map.2 ⟨e, he, rfl⟩))

/-- Every node stays reachable. -/
theorem half_reach (hw : g.WF) (he : IsEquality eq) (ha : Function.Injective addr) {vis : List N} {M : Mem N V L} (h : Half p g vis M) (m : N) :
    Reaches (fun m => (absorbed eq addr M m).map (·.2)) g.base m ↔ m ∈ g.nodes := by
  refine ⟨fun hm => ?_, fun hm => ?_⟩
  · induction hm with
    | refl => exact (hw.reach _).2 .refl
    | @tail a b hb hc ih =>
      obtain ⟨e, h1, rfl⟩ := List.mem_map.1 ((absorbed_next he ha M a b).1 hc)
      rcases List.mem_append.1 h1 with h1 | h1
      · obtain ⟨o, h2, h3⟩ := mem_landed.1 ((h.post a).mem_iff.1 h1)
        obtain ⟨l, hl, e', -, -, -, -, h4⟩ := mem_created.1 h3
        cases h4
        exact next_mem (e := l) hw (h.nodes o h2) hl
      · by_cases hv : a ∈ vis
        · exact next_mem hw ih (List.mem_filter.1 ((h.seen a hv).mem_iff.1 h1)).1
        · rw [h.unseen a hv] at h1
          exact next_mem hw ih h1
  · have hm' := (hw.reach m).1 hm
    clear hm
    induction hm' with
    | refl => exact .refl
    | @tail a b hb hc ih =>
      obtain ⟨l, hl, rfl⟩ := List.mem_map.1 hc
      have hl' : l ∈ g.out a := hl
      have hkeep : ∀ e ∈ M.out a, Reaches (fun m => (absorbed eq addr M m).map (·.2)) g.base e.2 := fun e h1 =>
        ih.tail ((absorbed_next he ha M a e.2).2 (List.mem_map.2 ⟨e, List.mem_append_right _ h1, rfl⟩))
      by_cases hv : a ∈ vis
      · by_cases hg : gone p (fun m => some (g.vertex m)) a (g.out a) l = true
        · have hg' := hg
          simp only [gone, Bool.and_eq_true, List.any_eq_true] at hg'
          obtain ⟨hmv, e, h1, h2, h3⟩ := hg'
          have h4 := hkeep e ((h.seen a hv).mem_iff.2 (stationary_kept h1 h2))
          refine h4.tail ((absorbed_next he ha M e.2 l.2).2 (List.mem_map.2 ⟨(p.bop l.1 e.1, l.2), List.mem_append_left _ ?_, rfl⟩))
          rw [(h.post e.2).mem_iff]
          exact mem_landed.2 ⟨a, hv, mem_created.2 ⟨l, hl', e, h1, hmv, h2, h3, rfl⟩⟩
        · exact hkeep l ((h.seen a hv).mem_iff.2 (List.mem_filter.2 ⟨hl', by simpa using hg⟩))
      · exact hkeep l (by rw [h.unseen a hv]; exact hl')

theorem half_unreached (hw : g.WF) {vis : List N} {M : Mem N V L} (h : Half p g vis M) {m : N} (hm : m ∉ g.nodes) : M.post m = [] := by
  by_contra hc
  obtain ⟨f, hf⟩ := List.exists_mem_of_ne_nil _ hc
  obtain ⟨o, h2, h3⟩ := mem_landed.1 ((h.post m).mem_iff.1 hf)
  obtain ⟨l, hl, e', h5, -, -, -, h4⟩ := mem_created.1 h3
  cases h4
  exact hm (next_mem hw (h.nodes o h2) h5)

/-- The end of the second traversal, if it isn't killed. -/
theorem absorbing_done {M : Mem N V L} {base : N} {nodes : List N}
    (hr : ∀ m, Reaches (fun m => (absorbed eq addr M m).map (·.2)) base m ↔ m ∈ nodes)
    {y : State n N (Trav.Job n N (Mem N V L × (Fin n → Bool)))}
    (hy : Net.Reach (absorbing eq addr hn) base (Trav.start (M, fun _ => false)) y) (hd : y.main = .done) (hk : y.g.killed = 0) :
    (∀ m ∈ nodes, y.g.mem.1.out m = absorbed eq addr M m ∧ y.g.mem.1.post m = [] ∧ y.g.mem.1.vertex m = M.vertex m) ∧
    (∀ m, m ∉ nodes → y.g.mem.1.out m = M.out m ∧ y.g.mem.1.post m = M.post m ∧ y.g.mem.1.vertex m = M.vertex m) ∧
    ((List.finRange n).any y.g.mem.2 = true ↔ ∃ m ∈ nodes, Grew eq addr M m) := by
  have hb := Rover.done_bag hn hy hd
  have hi := Rover.inv_reach (W := absorbingRover eq addr hn M) (a := base) (fun i => rfl) (absorbing_start eq addr hn M) rfl _ hb
  have hs := absorbing_stop _ hb hk
  have hmem : ∀ m, m ∈ y.g.seen (Build.lane hn (addr m)) ↔ m ∈ nodes := by
    intro m
    rw [← hr m, ← Rover.visited_iff hi (fun i => hs i), Rover.mem_visited]
    refine ⟨fun h => ⟨_, h⟩, fun ⟨i, h⟩ => ?_⟩
    have := hi.home i m h
    rw [← this] at h
    exact h
  refine ⟨fun m hm => ?_, fun m hm => (hi.I.1 m).1 fun h => hm ((hmem m).1 h), ?_⟩
  · rcases (hi.I.1 m).2 ((hmem m).2 hm) with h | h
    · exact h
    · rw [hs] at h; exact absurd h.2.2.2 (by decide)
  · rw [List.any_eq_true]
    constructor
    · rintro ⟨i, -, h⟩
      obtain ⟨m, h1, h2⟩ := hi.I.2.1 i h
      have := hi.home i m h1
      rw [← this] at h1
      exact ⟨m, (hmem m).1 h1, h2⟩
    · rintro ⟨m, h1, h2⟩
      refine ⟨Build.lane hn (addr m), List.mem_finRange _, ?_⟩
      rcases hi.I.2.2 _ m ((hmem m).2 h1) h2 with h | h
      · exact h
      · rw [hs] at h; cases h

/-! ## One iteration -/

/-- The graph after an iteration. -/
def graph (g : Gr N V L) (M : Mem N V L) : Gr N V L := ⟨g.nodes, g.base, g.vertex, M.out, fun _ => []⟩

theorem same_symm (he : IsEquality eq) (a b : L × N) (h : ¬ Compose.Same eq a b) : ¬ Compose.Same eq b a :=
  fun hc => h ⟨hc.1.symm, he.symm _ _ hc.2⟩

theorem landed_perm {vis : List N} (h : vis.Perm g.nodes) (m : N) : (landed p g vis m).Perm (arrivals p g m) :=
  (((List.Perm.flatMap_right _ h).filter _).map _)

theorem iter_moved (hw : g.WF) (he : IsEquality eq) (ha : Function.Injective addr) {M : Mem N V L} {ch : Bool}
    (h : Iter p eq addr hn g.base (mem g) M ch 0 0) :
    Moved p eq g M ∧ M = mem (graph g M) ∧ (graph g M).WF ∧
    (ch = true ↔ ∃ m ∈ g.nodes, arrivals p g m ≠ [] ∧ (kept p g m).length < (M.out m).length) ∧
    ∀ m ∈ g.nodes, ∀ o ∈ M.out m, ∀ f ∈ kept p g m, Compose.Same eq o f → o ∈ kept p g m := by
  obtain ⟨x, hx, hd, hk, y, hy, hd', hk', rfl, rfl⟩ := h
  obtain ⟨hh, hv⟩ := postponing_done hw hx hd
  have hv := hv hk
  have hr := half_reach hw he ha hh
  obtain ⟨h1, h2, h3⟩ := absorbing_done hr hy hd' hk'
  have hpost : ∀ m, (x.g.mem.post m).Perm (arrivals p g m) := fun m => (hh.post m).trans (landed_perm hv m)
  have hnil : ∀ m, x.g.mem.post m = [] ↔ arrivals p g m = [] := fun m =>
    ⟨fun h => List.perm_nil.1 ((hpost m).symm.trans (.of_eq h)), fun h => List.perm_nil.1 ((hpost m).trans (.of_eq h))⟩
  have hout : ∀ m ∈ g.nodes, (x.g.mem.out m).Perm (kept p g m) := fun m hm => hh.seen m (hv.mem_iff.2 hm)
  have hvx : ∀ m, y.g.mem.1.vertex m = some (g.vertex m) := by
    intro m
    have : y.g.mem.1.vertex m = x.g.mem.vertex m := by
      by_cases hm : m ∈ g.nodes
      · exact (h1 m hm).2.2
      · exact (h2 m hm).2.2
    rw [this, hh.vertex]
  have hreach : ∀ m, Reaches (fun m => (y.g.mem.1.out m).map (·.2)) g.base m ↔ m ∈ g.nodes := by
    intro m
    rw [← hr m]
    constructor
    · intro h
      induction h with
      | refl => exact .refl
      | @tail a b _ hc ih =>
        have hc' : b ∈ (y.g.mem.1.out a).map (·.2) := hc
        rw [(h1 a ((hr a).1 ih)).1] at hc'
        exact ih.tail hc'
    · intro h
      induction h with
      | refl => exact .refl
      | @tail a b hb hc ih =>
        refine ih.tail ?_
        show b ∈ (y.g.mem.1.out a).map (·.2)
        rw [(h1 a ((hr a).1 hb)).1]; exact hc
  refine ⟨⟨fun m _ => hvx m, hreach, fun m hm h => ?_, fun m hm h => ?_, fun m hm => (h1 m hm).2.1⟩, ?_, ⟨hw.nodup, fun m => (hreach m).symm⟩,
    ?_, fun m hm o ho f hf hs => ?_⟩
  · rw [(h1 m hm).1, absorbed, if_pos (by simpa using (hnil m).2 h)]
    exact hout m hm
  · rw [(h1 m hm).1]
    obtain ⟨d, ht⟩ := absorbed_transversal he ha x.g.mem m fun hc => h ((hnil m).1 hc)
    exact ⟨d, Merge.perm_transversal ((hpost m).append (hout m hm)) ht⟩
  · have e1 : y.g.mem.1.post = fun _ => [] := by
      funext m
      by_cases hm : m ∈ g.nodes
      · exact (h1 m hm).2.1
      · rw [(h2 m hm).2.1, half_unreached hw hh hm]
    have e2 : y.g.mem.1.vertex = fun m => some (g.vertex m) := funext hvx
    simp only [mem, graph]
    rw [← e1, ← e2]
  · rw [h3]
    constructor
    · rintro ⟨m, hm, hg1, hg2⟩
      refine ⟨m, hm, fun hc => hg1 ((hnil m).2 hc), ?_⟩
      rw [(h1 m hm).1, ← (hout m hm).length_eq]; exact hg2
    · rintro ⟨m, hm, hg1, hg2⟩
      refine ⟨m, hm, fun hc => hg1 ((hnil m).1 hc), ?_⟩
      rw [(h1 m hm).1, ← (hout m hm).length_eq] at hg2; exact hg2
  · rw [(h1 m hm).1] at ho
    rw [← (hout m hm).mem_iff]
    rw [← (hout m hm).mem_iff] at hf
    by_cases hc : x.g.mem.post m = []
    · rw [absorbed, if_pos (by simpa using hc)] at ho; exact ho
    · rw [absorbed, if_neg (by simpa using hc)] at ho
      exact Compose.dedup_last he ho hf hs

/-- The first traversal terminates. -/
theorem postponing_acc (M : Mem N V L) (base : N) (nodes : List N) (h : ∀ m, Reaches (fun m => (M.out m).map (·.2)) base m → m ∈ nodes) :
    ∀ x, Bag.Reach (postponing p addr hn) (.visit base) (Trav.start M) x → Acc (fun y x => Bag.Handles (postponing p addr hn) x y) x :=
  (postponingRover p addr hn M).acc (a := base) (fun _ => rfl) (postponing_start p addr hn M) rfl nodes h

/-- The second traversal terminates. -/
theorem absorbing_acc (M : Mem N V L) (base : N) (nodes : List N)
    (h : ∀ m, Reaches (fun m => (absorbed eq addr M m).map (·.2)) base m → m ∈ nodes) :
    ∀ x, Bag.Reach (absorbing eq addr hn) base (Trav.start (M, fun _ => false)) x →
      Acc (fun y x => Bag.Handles (absorbing eq addr hn) x y) x :=
  (absorbingRover eq addr hn M).acc (a := base) (fun _ => rfl) (absorbing_start eq addr hn M) rfl nodes h

theorem postponing_unkilled (i : Fin n) (s : Trav.Job n N (Mem N V L)) (q : Pkt N L) (h : s.killed = 0) :
    ((postponing p addr hn).handle i s q).1.killed = 0 := by
  obtain ⟨sample, stop, e, -⟩ := Trav.poll_eq s i
  cases q with
  | attach k f => simp only [postponing, postponeIt, e]; exact h
  | visit k =>
    simp only [postponing, postponeIt, e]
    split_ifs <;> exact h

theorem absorbing_unkilled (i : Fin n) (s : Trav.Job n N (Mem N V L × (Fin n → Bool))) (q : N) (h : s.killed = 0) :
    ((absorbing eq addr hn).handle i s q).1.killed = 0 := by
  obtain ⟨sample, stop, e, -⟩ := Trav.poll_eq s i
  simp only [absorbing, absorbIt, e]
  split_ifs <;> exact h

/-! ## Kills -/

/-- A worker that's killed at the beginning visits at most 31 nodes before it stops. -/
def Few {S : Type} (s : Trav.Job n N S) : Prop :=
  s.killed ≠ 0 ∧ ∀ i, s.stop i = false → s.sample i ≤ 31 ∧ (s.seen i).length ≤ s.sample i

omit [DecidableEq N] in
theorem poll_few {S : Type} {s : Trav.Job n N S} (h : Few s) (i : Fin n) : Few (Trav.poll s i) ∧ (Trav.poll s i).seen = s.seen ∧
    (Trav.poll s i).mem = s.mem ∧ ((Trav.poll s i).stop i = false → (s.seen i).length + 1 ≤ (Trav.poll s i).sample i) := by
  unfold Trav.poll
  split_ifs with c
  · exact ⟨h, rfl, rfl, fun hc => absurd c (by simp [hc])⟩
  · have c' : s.stop i = false := by simpa using c
    have h' := h.2 i c'
    have key : ((s.sample i + 1) % 32 == 0 && s.killed != 0) = false → s.sample i + 1 ≤ 31 := by
      intro hc
      have : ¬ (s.sample i + 1) % 32 = 0 := fun h2 => by rw [h2] at hc; simp [h.1] at hc
      omega
    refine ⟨⟨h.1, fun j hj => ?_⟩, rfl, rfl, fun hc => ?_⟩
    · by_cases hji : j = i
      · subst hji
        simp only [Function.update_self] at hj ⊢
        exact ⟨key hj, by omega⟩
      · simp only [Function.update_of_ne hji] at hj ⊢
        exact h.2 j hj
    · simp only [Function.update_self] at hc ⊢
      omega

omit [DecidableEq N] in
theorem few_append {S : Type} {s : Trav.Job n N S} (h : Few s) {i : Fin n} (m : N) (M : S)
    (hs : s.stop i = false → (s.seen i).length + 1 ≤ s.sample i) :
    Few { s with seen := Function.update s.seen i (s.seen i ++ [m]), mem := M } := by
  refine ⟨h.1, fun j hj => ?_⟩
  simp only at hj ⊢
  by_cases hji : j = i
  · subst hji
    rw [Function.update_self, List.length_append, List.length_singleton]
    exact ⟨(h.2 j hj).1, hs hj⟩
  · rw [Function.update_of_ne hji]; exact h.2 j hj

theorem postponing_few (i : Fin n) (s : Trav.Job n N (Mem N V L)) (q : Pkt N L) (h : Few s ∧ ∀ i, (s.seen i).length ≤ 31) :
    Few ((postponing p addr hn).handle i s q).1 ∧ ∀ j, (((postponing p addr hn).handle i s q).1.seen j).length ≤ 31 := by
  obtain ⟨h1, h2, h3, h4⟩ := poll_few h.1 i
  cases q with
  | attach k f =>
    simp only [postponing, postponeIt]
    exact ⟨h1, by rw [h2]; exact h.2⟩
  | visit k =>
    simp only [postponing, postponeIt]
    split_ifs with c
    · exact ⟨h1, by rw [h2]; exact h.2⟩
    · rw [not_or] at c
      have c1 : (Trav.poll s i).stop i = false := by simpa using c.1
      refine ⟨few_append h1 k _ (by rw [h2]; exact h4), fun j => ?_⟩
      simp only
      rw [h2]
      by_cases hj : j = i
      · subst hj
        rw [Function.update_self, List.length_append, List.length_singleton]
        exact (h4 c1).trans (h1.2 j c1).1
      · rw [Function.update_of_ne hj]; exact h.2 j

theorem absorbing_few (i : Fin n) (s : Trav.Job n N (Mem N V L × (Fin n → Bool))) (q : N)
    (h : Few s ∧ ∀ i, (∃ m ∈ s.seen i, s.mem.1.vertex m = none) ∨ (s.seen i).length ≤ 31) :
    Few ((absorbing eq addr hn).handle i s q).1 ∧ ∀ j, (∃ m ∈ ((absorbing eq addr hn).handle i s q).1.seen j,
      ((absorbing eq addr hn).handle i s q).1.mem.1.vertex m = none) ∨ (((absorbing eq addr hn).handle i s q).1.seen j).length ≤ 31 := by
  obtain ⟨h1, h2, h3, h4⟩ := poll_few h.1 i
  simp only [absorbing, absorbIt]
  split_ifs with c1 c2
  · exact ⟨h1, by rw [h2, h3]; exact h.2⟩
  · refine ⟨few_append h1 q _ fun hc => absurd c2 (by simp [hc]), fun j => ?_⟩
    simp only
    rw [h2, h3]
    by_cases hj : j = i
    · subst hj
      exact .inl ⟨q, by simp, by simp⟩
    · rw [Function.update_of_ne hj]
      rcases h.2 j with ⟨m, h5, h6⟩ | h5
      · refine .inl ⟨m, h5, ?_⟩
        by_cases hm : m = q
        · subst hm; simp
        · rw [Function.update_of_ne hm]; exact h6
      · exact .inr h5
  · have c2' : (Trav.poll s i).stop i = false := by simpa using c2
    refine ⟨few_append h1 q _ (by rw [h2]; exact h4), fun j => ?_⟩
    simp only
    rw [h2, h3]
    by_cases hj : j = i
    · subst hj
      rw [Function.update_self, List.length_append, List.length_singleton]
      exact .inr ((h4 c2').trans (h1.2 j c2').1)
    · rw [Function.update_of_ne hj]
      exact h.2 j

/-- The base node is visited by the second traversal, whether or not it's killed, and so are the nodes next to it. -/
theorem absorbing_first {M : Mem N V L} {base : N} :
    ∀ x, Bag.Reach (absorbing eq addr hn) base (Trav.start (M, fun _ => false)) x →
      (x.2 = {base} ∧ ∃ k, x.1 = { (Trav.start (M, fun _ => false) : Trav.Job n N _) with killed := k }) ∨
      (∀ m' ∈ (absorbed eq addr M base).map (·.2), m' ∈ x.1.seen (Build.lane hn (addr m')) ∨ m' ∈ x.2) ∧
      (Grew eq addr M base → x.1.mem.2 (Build.lane hn (addr base)) = true) ∧ base ∈ x.1.seen (Build.lane hn (addr base)) ∧
      x.1.mem.1.out base = absorbed eq addr M base ∧ x.1.mem.1.post base = [] ∧ x.1.mem.1.vertex base = M.vertex base := by
  intro x hx
  induction hx with
  | init => exact .inl ⟨rfl, 0, rfl⟩
  | step hr hs ih =>
    cases hs with
    | env e s m =>
      rcases ih with ⟨h1, k, h2⟩ | h
      · refine .inl ⟨h1, 1, ?_⟩
        simp only at h2
        subst h2; rfl
      · exact .inr h
    | handle s q rest =>
      right
      rcases ih with ⟨h1, k, h2⟩ | ⟨h1, h2, h3, h4, h5, h6⟩
      · simp only at h1 h2
        obtain rfl : q = base := by
          have : q ∈ ({base} : Multiset N) := by rw [← h1]; simp
          exact Multiset.mem_singleton.1 this
        have hp : ∃ sample, Trav.poll s (Build.lane hn (addr q)) = { s with sample := sample } := by
          rw [h2]
          refine ⟨Function.update (fun _ => 0) (Build.lane hn (addr q)) 1, ?_⟩
          simp only [Trav.poll, Trav.start]
          simp [Function.update_eq_self_iff]
        obtain ⟨sample, hp⟩ := hp
        have hs1 : s.stop (Build.lane hn (addr q)) = false := by rw [h2]; rfl
        have hs2 : s.seen (Build.lane hn (addr q)) = [] := by rw [h2]; rfl
        have hs3 : s.mem = (M, fun _ => false) := by rw [h2]; rfl
        have hnot : q ∉ s.seen (Build.lane hn (addr q)) := by rw [hs2]; simp
        have hprod : Bag.produced (absorbing eq addr hn) s q = (((absorbed eq addr M q).map (·.2) : List N) : Multiset N) := by
          simp only [Bag.produced, absorbing, absorbIt, hp]
          rw [if_neg hnot, if_neg (by rw [hs1]; decide), hs3]
          simp
        rw [hprod]
        simp only [absorbing, absorbIt, hp]
        rw [if_neg hnot, if_neg (by rw [hs1]; decide), hs3]
        refine ⟨fun m' hm' => .inr (Multiset.mem_add.2 (.inl (by simpa using hm'))), fun hg => ?_, by simp, by simp, by simp, by simp⟩
        simp only [Function.update_self]
        have := hg.1
        simp [hg.2, this]
      · have hI := Rover.inv_reach (W := absorbingRover eq addr hn M) (a := base) (fun i => rfl) (absorbing_start eq addr hn M) rfl _ hr
        have hmono := (absorbingRover eq addr hn M).mono hI.I q
        have hq : q ∈ ((absorbing eq addr hn).handle (Build.lane hn (addr q)) s q).1.seen (Build.lane hn (addr q)) := by
          simp only [absorbing, absorbIt]
          obtain ⟨sample, stop, e, -⟩ := Trav.poll_eq s (Build.lane hn (addr q))
          rw [e]
          split_ifs with c1 c2
          · exact c1
          · simp
          · simp
        refine ⟨fun m' hm' => ?_, fun hg => ?_, hmono _ _ h3, ?_⟩
        · rcases h1 m' hm' with h7 | h7
          · exact .inl (hmono _ _ h7)
          · rcases Multiset.mem_cons.1 h7 with rfl | h7
            · exact .inl hq
            · exact .inr (Multiset.mem_add.2 (.inr h7))
        · have h8 := h2 hg
          simp only [absorbing, absorbIt]
          obtain ⟨sample, stop, e, -⟩ := Trav.poll_eq s (Build.lane hn (addr q))
          rw [e]
          split_ifs with c1 c2
          · exact h8
          · exact h8
          · simp only
            by_cases hl : Build.lane hn (addr base) = Build.lane hn (addr q)
            · rw [hl] at h8 ⊢
              rw [Function.update_self, h8]; rfl
            · rw [Function.update_of_ne hl]; exact h8
        · simp only [absorbing, absorbIt]
          obtain ⟨sample, stop, e, -⟩ := Trav.poll_eq s (Build.lane hn (addr q))
          rw [e]
          split_ifs with c1 c2
          · exact ⟨h4, h5, h6⟩
          · have hne : base ≠ q := fun hc => c1 (by rw [← hc]; exact h3)
            simp only [Function.update_of_ne hne]
            exact ⟨h4, h5, h6⟩
          · have hne : base ≠ q := fun hc => c1 (by rw [← hc]; exact h3)
            simp only [Function.update_of_ne hne]
            exact ⟨h4, h5, h6⟩

end Cru.Postpone
