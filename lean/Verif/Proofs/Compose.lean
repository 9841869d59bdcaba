import Verif.Spec.Compose
import Verif.Props.Merge

/-! # Composing: lemmas -/

namespace Cru.Compose

open Net

variable {n : Nat} {N V L P : Type}

/-! ### One node -/

theorem compose_fold {c : Composer P L} {props : N → Option (P × P)} {p : N → P × P} {m : N} {e : L × N} (es : List (L × N))
    (h : ∀ e' ∈ es, props e'.2 = some (p e'.2)) (s : List (L × N) × List L) :
    es.foldl (composeOne c props (p m) e.1) s =
      (s.1 ++ ((es.filter (selects c p m e)).map fun e' => (c.qop (p m).1 e.1 (p e'.2).2 e'.1, e'.2)),
       s.2 ++ if c.destructive then (es.filter (selects c p m e)).map (fun _ => e.1) else []) := by
  induction es generalizing s with
  | nil => simp
  | cons e' es ih =>
    rw [List.foldl_cons, ih fun a ha => h a (by simp [ha])]
    have he : props e'.2 = some (p e'.2) := h e' (by simp)
    simp only [composeOne, he]
    by_cases hq : c.qpred (p m).1 e.1 (p e'.2).2 e'.1 = true
    · rw [if_pos hq, List.filter_cons_of_pos (show selects c p m e e' = true from hq)]
      cases c.destructive <;> simp
    · rw [if_neg hq, List.filter_cons_of_neg (show ¬ selects c p m e e' = true from hq)]

/-- The labels of the edges of a node that are composed. -/
def marks (c : Composer P L) (p : N → P × P) (out : N → List (L × N)) (m : N) : List L :=
  if c.destructive then (out m).flatMap fun e => ((out e.2).filter (selects c p m e)).map fun _ => e.1 else []

theorem composeAll_eq {c : Composer P L} {props : N → Option (P × P)} {p : N → P × P} {out : N → List (L × N)} {m : N}
    (hm : props m = some (p m)) (h : ∀ e ∈ out m, ∀ e' ∈ out e.2, props e'.2 = some (p e'.2)) :
    composeAll c out props m = (called c p out m, marks c p out m) := by
  have key : ∀ (es : List (L × N)) (s : List (L × N) × List L), (∀ e ∈ es, ∀ e' ∈ out e.2, props e'.2 = some (p e'.2)) →
      es.foldl (compose c out props (props m)) s =
        (s.1 ++ es.flatMap (fun e => ((out e.2).filter (selects c p m e)).map fun e' => (c.qop (p m).1 e.1 (p e'.2).2 e'.1, e'.2)),
         s.2 ++ if c.destructive then es.flatMap (fun e => ((out e.2).filter (selects c p m e)).map fun _ => e.1) else []) := by
    intro es
    induction es with
    | nil => intro s _; simp
    | cons e es ih =>
      intro s hs
      rw [List.foldl_cons, ih _ fun a ha => hs a (by simp [ha])]
      simp only [compose, hm]
      rw [compose_fold _ (hs e (by simp))]
      cases c.destructive <;> simp
  simp [composeAll, key _ _ h, called, marks]

theorem mem_marks {c : Composer P L} {p : N → P × P} {out : N → List (L × N)} {m : N} {l : L} :
    l ∈ marks c p out m ↔ c.destructive = true ∧ ∃ e ∈ out m, isComposed c p out m e = true ∧ e.1 = l := by
  unfold marks isComposed
  cases c.destructive
  · simp
  · simp only [if_true, List.mem_flatMap, List.mem_map, List.mem_filter, List.any_eq_true, true_and]
    constructor
    · rintro ⟨e, he, e', ⟨h1, h2⟩, rfl⟩; exact ⟨e, he, ⟨e', h1, h2⟩, rfl⟩
    · rintro ⟨e, he, ⟨e', h1, h2⟩, rfl⟩; exact ⟨e, he, e', ⟨h1, h2⟩, rfl⟩

theorem mem_called {c : Composer P L} {p : N → P × P} {out : N → List (L × N)} {m : N} {f : L × N} :
    f ∈ called c p out m ↔ ∃ e ∈ out m, ∃ e' ∈ out e.2, selects c p m e e' = true ∧ f = (c.qop (p m).1 e.1 (p e'.2).2 e'.1, e'.2) := by
  simp only [called, List.mem_flatMap, List.mem_map, List.mem_filter]
  constructor
  · rintro ⟨e, he, e', ⟨h1, h2⟩, rfl⟩; exact ⟨e, he, e', h1, h2, rfl⟩
  · rintro ⟨e, he, e', h1, h2, rfl⟩; exact ⟨e, he, e', ⟨h1, h2⟩, rfl⟩

/-! ### Deduplication -/

theorem Same.refl' {eq : L → L → Bool} (he : IsEquality eq) (a : L × N) : Same eq a a := ⟨rfl, he.refl _⟩

theorem Same.symm' {eq : L → L → Bool} (he : IsEquality eq) {a b : L × N} (h : Same eq a b) : Same eq b a :=
  ⟨h.1.symm, he.symm _ _ h.2⟩

theorem Same.trans' {eq : L → L → Bool} (he : IsEquality eq) {a b c : L × N} (h : Same eq a b) (h' : Same eq b c) : Same eq a c :=
  ⟨h.1.trans h'.1, he.trans _ _ _ h.2 h'.2⟩

theorem dedup_transversal {eq : L → L → Bool} (he : IsEquality eq) {addr : N → Nat} (ha : Function.Injective addr) (es : List (L × N)) :
    ∃ dropped, IsTransversal (Same eq) es (dedup eq addr es) dropped := by
  have h := C27_deduplicated_edges (leq := fun a b : L × N => eq a.1 b.1)
    ⟨fun a => he.refl _, fun a b => he.symm _ _, fun a b c => he.trans _ _ _⟩ (fun e => addr e.2) es
  have hrel : (fun x y : L × N => addr x.2 = addr y.2 ∧ eq x.1 y.1 = true) = Same eq := by
    funext x y; simp [Same, ha.eq_iff]
  rw [hrel] at h
  exact ⟨_, h⟩

theorem splitRepeats_append {α : Type} (leq : α → α → Bool) (x y : List α) : ∀ seen,
    (splitRepeats leq seen (x ++ y)).1 =
      (splitRepeats leq seen x).1 ++ (splitRepeats leq (seen ++ (splitRepeats leq seen x).1) y).1 := by
  induction x with
  | nil => intro seen; simp [splitRepeats]
  | cons e x ih =>
    intro seen
    by_cases h : seen.any (leq e) = true
    · simp only [List.cons_append, splitRepeats, h, if_true]; exact ih seen
    · simp only [List.cons_append, splitRepeats, h, if_false, Bool.false_eq_true]
      rw [ih]; simp

/-- Of equal edges, one that is in the second of two lists is kept if there is any. -/
theorem dedup_last {eq : L → L → Bool} (he : IsEquality eq) {addr : N → Nat} {xs ys : List (L × N)} {o f : L × N}
    (ho : o ∈ dedup eq addr (xs ++ ys)) (hf : f ∈ ys) (h : Same eq o f) : o ∈ ys := by
  have hl : IsEquality fun a b : L × N => eq a.1 b.1 := ⟨fun a => he.refl _, fun a b => he.symm _ _, fun a b c => he.trans _ _ _⟩
  simp only [dedup, deduplicatedEdges, deduplicatedBrigade_eq, List.mem_flatMap, List.mem_reverse] at ho
  obtain ⟨b, hb, ho⟩ := ho
  have hb' : ∃ k, b = judyBin (fun e : L × N => addr e.2) (xs ++ ys) k := by
    have : ∀ (ks : List Nat) (acc : List (List (L × N))), b ∈ ks.foldl (fun b k => judyBin (fun e : L × N => addr e.2) (xs ++ ys) k :: b) acc →
        b ∈ acc ∨ ∃ k, b = judyBin (fun e : L × N => addr e.2) (xs ++ ys) k := by
      intro ks
      induction ks with
      | nil => intro acc h; exact .inl h
      | cons k ks ih =>
        intro acc h
        rcases ih _ h with h | h
        · rcases List.mem_cons.1 h with h | h
          · exact .inr ⟨k, h⟩
          · exact .inl h
        · exact .inr h
    rcases this _ _ hb with h | h
    · cases h
    · exact h
  obtain ⟨k, rfl⟩ := hb'
  have hok : o ∈ judyBin (fun e : L × N => addr e.2) (xs ++ ys) k :=
    ((splitRepeats_spec hl _ []).2.1).subset ho
  have hk : addr o.2 = k := ((mem_judyBin _ _ _ _).1 hok).2
  have hsplit : judyBin (fun e : L × N => addr e.2) (xs ++ ys) k =
      judyBin (fun e : L × N => addr e.2) ys k ++ judyBin (fun e : L × N => addr e.2) xs k := by simp [judyBin]
  rw [hsplit, splitRepeats_append] at ho
  rcases List.mem_append.1 ho with ho | ho
  · exact ((mem_judyBin _ _ _ _).1 ((splitRepeats_spec hl _ []).2.1.subset ho)).1
  · exfalso
    obtain ⟨-, -, -, h3, -⟩ := splitRepeats_spec hl (judyBin (fun e : L × N => addr e.2) xs k)
      ([] ++ (splitRepeats (fun a b : L × N => eq a.1 b.1) [] (judyBin (fun e : L × N => addr e.2) ys k)).1)
    have hfy : f ∈ judyBin (fun e : L × N => addr e.2) ys k := (mem_judyBin _ _ _ _).2 ⟨hf, by rw [← h.1]; exact hk⟩
    rcases (splitRepeats_spec hl (judyBin (fun e : L × N => addr e.2) ys k) []).2.2.2.2 f hfy with ⟨q, hq, hqf⟩ | ⟨q, hq, -⟩
    · exact h3 o ho q (by simpa using hq) (he.trans _ _ _ hqf (he.symm _ _ h.2))
    · cases hq

theorem transversal_join {eq : L → L → Bool} (he : IsEquality eq) {xs ys bs out d d' : List (L × N)}
    (hb : IsTransversal (Same eq) ys bs d) (ho : IsTransversal (Same eq) (xs ++ bs) out d') :
    IsTransversal (Same eq) (xs ++ ys) out (d' ++ d) := by
  refine ⟨?_, ho.distinct, ?_⟩
  · have h1 : (out ++ (d' ++ d)).Perm ((xs ++ bs) ++ d) := by
      rw [← List.append_assoc]; exact ho.perm.append_right d
    refine h1.trans ?_
    rw [List.append_assoc]
    exact hb.perm.append_left xs
  · intro e h
    rcases List.mem_append.1 h with h | h
    · exact ho.covers e (List.mem_append_left _ h)
    · obtain ⟨b, hbm, hbe⟩ := hb.covers e h
      obtain ⟨o, hom, hob⟩ := ho.covers b (List.mem_append_right _ hbm)
      exact ⟨o, hom, hob.trans' he hbe⟩

/-! ### Guarding -/

theorem guard_done [DecidableEq N] {g : Gr N V L} (hw : g.WF) {mapped : N → P × P} {addr : N → Nat} {hn : 0 < n}
    {x : State n N (Trav.Job n N (N → Option (P × P)))}
    (hx : Net.Reach (guarding g mapped addr hn) g.base (Trav.start fun _ => none) x) (hd : x.main = .done) :
    ((List.finRange n).flatMap x.g.seen).Perm g.nodes ∧ ∀ m ∈ g.nodes, x.g.mem m = some (mapped m) := by
  obtain ⟨hx', hk⟩ := Trav.quiet_reach hx
  have hinv := Trav.induct (motive := fun seen err mem => (∀ i, err i = 0) ∧ ∀ i, ∀ m ∈ seen i, (mem : N → Option (P × P)) m = some (mapped m))
    ⟨fun _ => rfl, fun _ _ h => absurd h (by simp)⟩ (by
      rintro seen err mem m ⟨h1, h2⟩ - - -
      refine ⟨fun i => ?_, fun i a ha => ?_⟩
      · by_cases hj : i = Build.lane hn (addr m)
        · subst hj; rw [Function.update_self]
        · rw [Function.update_of_ne hj]; exact h1 i
      · show guardIt mapped mem m a = some (mapped a)
        unfold guardIt
        by_cases ham : a = m
        · subst ham; rw [Function.update_self]
        · rw [Function.update_of_ne ham]
          by_cases hj : i = Build.lane hn (addr m)
          · subst hj
            rw [Function.update_self] at ha
            rcases List.mem_append.1 ha with ha | ha
            · exact h2 _ a ha
            · exact absurd (by simpa using ha) ham
          · rw [Function.update_of_ne hj] at ha; exact h2 i a ha) _ (reach_bag hn hx')
  have hp := Trav.done_perm hx' hd hk hinv.1 ⟨hw.nodup, hw.reach⟩
  refine ⟨hp, fun m hm => ?_⟩
  obtain ⟨i, -, h⟩ := List.mem_flatMap.1 (hp.mem_iff.2 hm)
  exact hinv.2 i m h

theorem mem_survivors {x : Trav.Job n N (N → Option (P × P))} {m : N} :
    m ∈ (List.finRange n).flatMap (survivors x) ↔ m ∈ (List.finRange n).flatMap x.seen := by
  simp [survivors, List.mem_flatMap]

theorem unkilled_none (t : Nat) (ms : List N) : unkilled none t ms = ms := by
  induction ms generalizing t with
  | nil => rfl
  | cons m ms ih => simp [unkilled, ih]

theorem mem_composed_none {x : Trav.Job n N (N → Option (P × P))} {m : N} :
    m ∈ composedNodes x (fun _ => none) ↔ m ∈ (List.finRange n).flatMap x.seen := by
  simp [composedNodes, unkilled_none, survivors, List.mem_flatMap]

theorem unkilled_sub (since : Option Nat) (t : Nat) (ms : List N) : (unkilled since t ms).Sublist ms := by
  induction ms generalizing t with
  | nil => exact List.Sublist.refl _
  | cons m ms ih =>
    unfold unkilled
    split_ifs
    · exact List.nil_sublist _
    · exact (ih _).cons_cons _

theorem unkilled_few (ms : List N) : ∀ t, t ≤ 31 → (unkilled (some 0) t ms).length ≤ 31 - t := by
  induction ms with
  | nil => intro t _; simp [unkilled]
  | cons m ms ih =>
    intro t ht
    unfold unkilled
    split_ifs with h
    · simp
    · have : t + 1 ≤ 31 := by
        by_contra hc
        have : t = 31 := by omega
        subst this; simp at h
      have := ih (t + 1) this
      simp only [List.length_cons]; omega

/-! ### The graph after bypassing -/

section After

variable [DecidableEq N] [DecidableEq L] {g : Gr N V L} {c : Composer P L} {eq : L → L → Bool} {addr : N → Nat} {mapped : N → P × P}
  {x : Trav.Job n N (N → Option (P × P))} {since : Fin n → Option Nat}

theorem next_mem (hw : g.WF) {a : N} (h : a ∈ g.nodes) {e : L × N} (he : e ∈ g.out a) : e.2 ∈ g.nodes :=
  (hw.reach _).2 (((hw.reach _).1 h).tail (List.mem_map.2 ⟨e, he, rfl⟩))

/-- What becomes of the edges of a node that has been composed. -/
theorem bypassing_composed (hw : g.WF) (hp : ((List.finRange n).flatMap x.seen).Perm g.nodes)
    (hs : ∀ m ∈ g.nodes, x.mem m = some (mapped m)) {m : N} (hm : m ∈ g.nodes) (hc : m ∈ composedNodes x since) :
    (bypassing g c eq addr x since).out m =
      (dedup eq addr (g.out m ++ dedup eq addr (called c mapped g.out m))).filter fun e => decide (e.1 ∉ marks c mapped g.out m) := by
  have h := composeAll_eq (c := c) (out := g.out) (hs m hm) fun e he e' he' => hs _ (next_mem hw (next_mem hw hm he) he')
  simp only [bypassing]
  rw [if_pos (mem_survivors.2 (hp.mem_iff.2 hm))]
  simp only [nodeEdges, hc, decide_true, if_true, h, bypassed, hs m hm]

/-- What becomes of the edges of a node that hasn't. -/
theorem bypassing_other (hp : ((List.finRange n).flatMap x.seen).Perm g.nodes)
    (hs : ∀ m ∈ g.nodes, x.mem m = some (mapped m)) {m : N} (hm : m ∈ g.nodes) (hc : m ∉ composedNodes x since) :
    (bypassing g c eq addr x since).out m = dedup eq addr (g.out m) := by
  simp only [bypassing]
  rw [if_pos (mem_survivors.2 (hp.mem_iff.2 hm))]
  simp [nodeEdges, hc, bypassed, hs m hm]

theorem bypassing_sub (hw : g.WF) (he : IsEquality eq) (ha : Function.Injective addr) (hp : ((List.finRange n).flatMap x.seen).Perm g.nodes)
    (hs : ∀ m ∈ g.nodes, x.mem m = some (mapped m)) {m : N} (hm : m ∈ g.nodes) {e : L × N}
    (h : e ∈ (bypassing g c eq addr x since).out m) : e ∈ g.out m ∨ e ∈ called c mapped g.out m := by
  by_cases hc : m ∈ composedNodes x since
  · rw [bypassing_composed hw hp hs hm hc] at h
    obtain ⟨d, hd⟩ := dedup_transversal he ha (called c mapped g.out m)
    obtain ⟨d', hd'⟩ := dedup_transversal he ha (g.out m ++ dedup eq addr (called c mapped g.out m))
    have := transversal_join he hd hd'
    exact List.mem_append.1 (this.perm.mem_iff.1 (List.mem_append_left _ (List.mem_of_mem_filter h)))
  · rw [bypassing_other hp hs hm hc] at h
    obtain ⟨d, hd⟩ := dedup_transversal he ha (g.out m)
    exact .inl (hd.perm.mem_iff.1 (List.mem_append_left _ h))

/-- No node becomes reachable. -/
theorem bypassing_reach (hw : g.WF) (he : IsEquality eq) (ha : Function.Injective addr) (hp : ((List.finRange n).flatMap x.seen).Perm g.nodes)
    (hs : ∀ m ∈ g.nodes, x.mem m = some (mapped m)) {m : N} (h : Reaches ((bypassing g c eq addr x since).next false) g.base m) :
    m ∈ g.nodes := by
  induction h with
  | refl => exact (hw.reach _).2 .refl
  | tail _ hb ih =>
    simp only [Gr.next, Bool.false_eq_true, if_false, List.mem_map] at hb
    obtain ⟨e, h1, rfl⟩ := hb
    rcases bypassing_sub hw he ha hp hs ih h1 with h | h
    · exact next_mem hw ih h
    · obtain ⟨e₁, h2, e₂, h3, -, rfl⟩ := mem_called.1 h
      exact next_mem (e := e₂) hw (next_mem hw ih h2) h3

end After

/-! ### Pruning -/

theorem pruning_err [DecidableEq N] {g : Gr N V L} {addr : N → Nat} {hn : 0 < n} {a : N} {z : State n N (Trav.Job n N Unit)}
    (hz : Net.Reach (pruning g addr hn) a (Trav.start ()) z) : ∀ i, z.g.err i = 0 := by
  have := Trav.induct (motive := fun _ err _ => ∀ i, err i = 0) (fun _ => rfl) (by
    intro seen err mem m h _ _ _ i
    by_cases hj : i = Build.lane hn (addr m)
    · subst hj; rw [Function.update_self]
    · rw [Function.update_of_ne hj]; exact h i) _ (reach_bag hn hz)
  exact this

theorem pruned_wf [DecidableEq N] {g : Gr N V L} {addr : N → Nat} {hn : 0 < n} {z : State n N (Trav.Job n N Unit)} {ms : List N}
    (hd : ms.Nodup) (hms : ∀ m, Reaches (g.next false) g.base m → m ∈ ms)
    (hz : Net.Reach (pruning g addr hn) g.base (Trav.start ()) z) (hzd : z.main = .done) (hzk : z.g.killed = 0) :
    (Merge.collected g z.g).WF := by
  obtain ⟨cs, hcs⟩ := Merge.covers_of hd hms
  have hp := Trav.done_perm hz hzd hzk (pruning_err hz) hcs
  exact ⟨hp.nodup_iff.2 hcs.nodup, fun m => (hp.mem_iff).trans (hcs.mem m)⟩

end Cru.Compose
