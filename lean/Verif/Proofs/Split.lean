import Verif.Spec.Split
import Verif.Proofs.Rover
import Verif.Proofs.Trav
import Verif.Proofs.Quiet
import Mathlib.Tactic.Abel

/-! # Splitting: lemmas -/

namespace Cru.Split

open Net

variable {n : Nat} {N V L P : Type}

variable {sp : Splitter V P L} {g : Gr N V L} {prop : N → P}

/-! ## Edges of one node -/

/-- The edges of a node after `fan_out`. -/
def stage (sp : Splitter V P L) (g : Gr N V L) (prop : N → P) (s : Twin N) : List (L × N) :=
  if fissile sp g prop s.1 then
    if s.2 then (fanEdges sp (prop s.1) prop (g.out s.1)).2 else (fanEdges sp (prop s.1) prop (g.out s.1)).1
  else if s.2 then [] else g.out s.1

theorem fanEdges_go (p : P) (es : List (L × N)) (a : List (L × N) × List (L × N)) :
    (es.foldl (fanEdge sp p prop) a).1 = a.1 ++ es.flatMap (fun e => (sp.outAna.label p e.1 (prop e.2)).toList.map (·, e.2)) ∧
    (es.foldl (fanEdge sp p prop) a).2.Perm (a.2 ++ es.flatMap fun e => (sp.outCata.label p e.1 (prop e.2)).toList.map (·, e.2)) := by
  induction es generalizing a with
  | nil => simp
  | cons e es ih =>
    rw [List.foldl_cons]
    obtain ⟨h1, h2⟩ := ih (fanEdge sp p prop a e)
    refine ⟨by rw [h1]; simp [fanEdge], h2.trans ?_⟩
    simp only [fanEdge, List.flatMap_cons]
    rw [← List.append_assoc]
    exact List.perm_append_comm.append_right _

theorem fanEdges_perm (p : P) (es : List (L × N)) :
    (fanEdges sp p prop es).1.Perm (es.flatMap (fun e => (sp.outAna.label p e.1 (prop e.2)).toList.map (·, e.2))) ∧
    (fanEdges sp p prop es).2.Perm (es.flatMap fun e => (sp.outCata.label p e.1 (prop e.2)).toList.map (·, e.2)) := by
  obtain ⟨h1, h2⟩ := fanEdges_go (sp := sp) (prop := prop) p es ([], [])
  exact ⟨by rw [fanEdges, h1]; simp, by simpa [fanEdges] using h2⟩

/-- What becomes of them is what's specified. -/
theorem stage_copies [DecidableEq N] (cp : N → P) (s : Twin N) :
    ((stage sp g prop s).flatMap fun e => termini sp g prop (if s.2 then cp s.1 else prop s.1) e.1 e.2).Perm (copies sp g prop cp s) := by
  obtain ⟨m, b⟩ := s
  unfold stage copies copiesBy
  simp only
  by_cases hf : fissile sp g prop m = true
  · rw [if_pos hf]
    cases b
    · simp only [Bool.false_eq_true, if_false]
      refine ((fanEdges_perm (sp := sp) (prop := prop) (prop m) (g.out m)).1.flatMap_right _).trans ?_
      rw [List.flatMap_assoc]
      refine List.Perm.of_eq (List.flatMap_congr fun e _ => ?_)
      simp only [origins, hf, if_true, List.filter_append]
      cases sp.outAna.label (prop m) e.1 (prop e.2) <;> cases sp.outCata.label (prop m) e.1 (prop e.2) <;> simp
    · simp only [if_true]
      refine ((fanEdges_perm (sp := sp) (prop := prop) (prop m) (g.out m)).2.flatMap_right _).trans ?_
      rw [List.flatMap_assoc]
      refine List.Perm.of_eq (List.flatMap_congr fun e _ => ?_)
      simp only [origins, hf, if_true, List.filter_append]
      cases sp.outAna.label (prop m) e.1 (prop e.2) <;> cases sp.outCata.label (prop m) e.1 (prop e.2) <;> simp
  · rw [if_neg hf]
    cases b <;> simp [origins, hf]

theorem stage_mem {s : Twin N} {e : L × N} (h : e ∈ stage sp g prop s) : e.2 ∈ (g.out s.1).map (·.2) := by
  unfold stage at h
  split_ifs at h
  · rw [(fanEdges_perm _ _).2.mem_iff] at h
    obtain ⟨a, ha, h⟩ := List.mem_flatMap.1 h
    obtain ⟨l, -, rfl⟩ := List.mem_map.1 h
    exact List.mem_map.2 ⟨a, ha, rfl⟩
  · rw [(fanEdges_perm _ _).1.mem_iff] at h
    obtain ⟨a, ha, h⟩ := List.mem_flatMap.1 h
    obtain ⟨l, -, rfl⟩ := List.mem_map.1 h
    exact List.mem_map.2 ⟨a, ha, rfl⟩
  · cases h
  · exact List.mem_map.2 ⟨e, h, rfl⟩

/-- The nodes to which packets are sent on receipt of a node for the first time. -/
def arcs (sp : Splitter V P L) (g : Gr N V L) (prop : N → P) (m : N) : List N :=
  (stage sp g prop (m, true)).map (·.2) ++ (stage sp g prop (m, false)).map (·.2)

variable [DecidableEq N] [DecidableEq L]

theorem replace_perm {α : Type} [BEq α] [LawfulBEq α] {l : List α} {a : α} (b : α) (h : a ∈ l) :
    ∃ r, l.Perm (a :: r) ∧ (l.replace a b).Perm (b :: r) := by
  induction l with
  | nil => cases h
  | cons c l ih =>
    by_cases hc : (a == c) = true
    · have := eq_of_beq hc
      subst this
      exact ⟨l, .refl _, by rw [List.replace_cons]; simp⟩
    · have hb : (a == c) = false := by simpa using hc
      have : a ∈ l := by
        rcases List.mem_cons.1 h with rfl | h
        · simp at hc
        · exact h
      obtain ⟨r, h1, h2⟩ := ih this
      refine ⟨c :: r, (h1.cons c).trans (.swap _ _ _), ?_⟩
      rw [List.replace_cons]
      simp only [hb]
      exact (h2.cons c).trans (.swap _ _ _)

/-! ## The ledger of edges -/

/-- The edge of `s` that a packet is about. -/
def owed (s : Twin N) : Pkt N L → Multiset (L × Twin N)
  | .visit m (some c) => if c.1 = s then {(c.2, (m, false))} else 0
  | .disconnect o e => if o = s then {e} else 0
  | _ => 0

/-- The edges of `s` that will come of a packet, where `q` is the property of `s`. -/
def due (sp : Splitter V P L) (g : Gr N V L) (prop : N → P) (s : Twin N) (q : P) : Pkt N L → Multiset (L × Twin N)
  | .visit m (some c) => if c.1 = s then (termini sp g prop q c.2 m : Multiset (L × Twin N)) else 0
  | .connect o e => if o = s then {e} else 0
  | _ => 0

/-- What's known about the edges, where `vis` tells the nodes received so far. -/
def Ledger (sp : Splitter V P L) (g : Gr N V L) (prop : N → P) (vis : N → Prop) (M : Mem n N V L P) (bag : Multiset (Pkt N L)) : Prop :=
  ∀ s, (vis s.1 → ∃ A : Multiset (L × Twin N), (M.out s : Multiset (L × Twin N)) = A + (bag.map (owed s)).sum ∧
      A + (bag.map (due sp g prop s (M.prop s))).sum =
        ((stage sp g prop s).flatMap fun e => termini sp g prop (M.prop s) e.1 e.2 : List (L × Twin N))) ∧
    (¬ vis s.1 → M.out s = (if s.2 then [] else (g.out s.1).map fun e => (e.1, (e.2, false))) ∧
      (bag.map (owed s)).sum = 0 ∧ ∀ q, (bag.map (due sp g prop s q)).sum = 0)

/-- What's known about the other fields of the nodes. -/
structure Fields (sp : Splitter V P L) (g : Gr N V L) (prop : N → P) (vis : N → Prop) (M : Mem n N V L P) : Prop where
  same : ∀ m, M.prop (m, false) = prop m
  split : ∀ m, M.split m = true ↔ vis m ∧ fissile sp g prop m = true
  seen : ∀ m, vis m → M.vertex (m, false) = vertices sp g prop (m, false)
  unseen : ∀ m, ¬ vis m → M.vertex (m, false) = g.vertex m
  cata : ∀ m, vis m → fissile sp g prop m = true → M.vertex (m, true) = vertices sp g prop (m, true) ∧
    IsCataProperty sp g prop m (M.prop (m, true))

omit [DecidableEq L] in
theorem owed_scatter (s o : Twin N) (es : List (L × N)) :
    ((scatter o es).map (owed s)).sum = if o = s then (((es.map fun e => (e.1, (e.2, false))) : List (L × Twin N)) : Multiset (L × Twin N)) else 0 := by
  unfold scatter
  induction es with
  | nil => simp
  | cons e es ih =>
    simp only [List.map_cons, List.sum_cons]
    rw [ih]
    by_cases h : o = s
    · simp [owed, h]
    · simp [owed, h]

omit [DecidableEq L] in
theorem due_scatter (s o : Twin N) (q : P) (es : List (L × N)) :
    ((scatter o es).map (due sp g prop s q)).sum =
      if o = s then (((es.flatMap fun e => termini sp g prop q e.1 e.2) : List (L × Twin N)) : Multiset (L × Twin N)) else 0 := by
  unfold scatter
  induction es with
  | nil => simp
  | cons e es ih =>
    simp only [List.map_cons, List.sum_cons]
    rw [ih]
    by_cases h : o = s
    · simp [due, h]
    · simp [due, h]

/-- What's sent by `fan_out`. -/
theorem fanOut_sends {vfree : Bool} {i : Fin n} {M : Mem n N V L P} {m : N} (hp : ∀ m, M.prop (m, false) = prop m) :
    (fanOut sp vfree g i M m).2 = (if fissile sp g prop m then [.create m] else []) ++
      (scatter (m, true) (stage sp g prop (m, true)) ++ scatter (m, false) (stage sp g prop (m, false))) := by
  have : (fun a => M.prop (a, false)) = prop := funext hp
  unfold fanOut stage
  simp only [this, hp]
  by_cases hf : sp.fissile (g.vertex m) (prop m) = true
  · rw [if_pos hf]; simp [fissile, hf]
  · rw [if_neg hf]; simp [fissile, hf, scatter]

theorem fanOut_prop {vfree : Bool} {i : Fin n} {M : Mem n N V L P} {m : N} (s : Twin N) (hs : s ≠ (m, true)) :
    (fanOut sp vfree g i M m).1.prop s = M.prop s := by
  unfold fanOut
  simp only
  by_cases hff : sp.fissile (g.vertex m) (M.prop (m, false)) = true
  · rw [if_pos hff]; exact Function.update_of_ne hs _ _
  · rw [if_neg hff]

/-- `fan_out` keeps what's known about the fields. -/
theorem fanOut_fields {vfree : Bool} {i : Fin n} {M : Mem n N V L P} {m : N} {vis : N → Prop} (hf : Fields sp g prop vis M) (hm : ¬ vis m) :
    Fields sp g prop (fun a => a = m ∨ vis a) (fanOut sp vfree g i M m).1 := by
  have hprop := fanOut_prop (sp := sp) (vfree := vfree) (g := g) (i := i) (M := M) (m := m)
  refine ⟨fun a => ?_, fun a => ?_, fun a ha => ?_, fun a ha => ?_, fun a ha hfa => ?_⟩
  · rw [hprop _ (by simp)]; exact hf.same a
  · have hs := hf.split a
    unfold fanOut
    simp only [hf.same]
    by_cases hff : sp.fissile (g.vertex m) (prop m) = true
    · rw [if_pos hff]
      by_cases ham : a = m
      · subst ham; simp [fissile, hff]
      · simp [Function.update_of_ne ham, ham, hs]
    · rw [if_neg hff]
      by_cases ham : a = m
      · subst ham; simp [hs, fissile, hff]
      · simp [ham, hs]
  · unfold fanOut
    simp only [hf.same]
    by_cases hff : sp.fissile (g.vertex m) (prop m) = true
    · rw [if_pos hff]
      by_cases ham : a = m
      · subst ham; simp [vertices, fissile, hff]
      · simp only [Function.update, Prod.mk.injEq, ham, false_and, dite_false]
        exact hf.seen a (ha.resolve_left ham)
    · rw [if_neg hff]
      by_cases ham : a = m
      · subst ham
        rw [hf.unseen a hm]; simp [vertices, fissile, hff]
      · exact hf.seen a (ha.resolve_left ham)
  · have ham : a ≠ m := fun hc => ha (.inl hc)
    unfold fanOut
    simp only [hf.same]
    by_cases hff : sp.fissile (g.vertex m) (prop m) = true
    · rw [if_pos hff]
      simp only [Function.update, Prod.mk.injEq, ham, false_and, dite_false]
      exact hf.unseen a fun hc => ha (.inr hc)
    · rw [if_neg hff]; exact hf.unseen a fun hc => ha (.inr hc)
  · by_cases ham : a = m
    · subst ham
      have hff : sp.fissile (g.vertex a) (prop a) = true := hfa
      unfold fanOut
      simp only [hf.same, if_pos hff]
      refine ⟨by simp [Function.update, vertices], fun t => M.vertex (t, false), fun t => ?_, by simp⟩
      by_cases ht : vis t
      · exact .inr (hf.seen t ht)
      · exact .inl (hf.unseen t ht)
    · have := hf.cata a (ha.resolve_left ham) hfa
      unfold fanOut
      simp only [hf.same]
      by_cases hff : sp.fissile (g.vertex m) (prop m) = true
      · rw [if_pos hff]; simpa [Function.update, ham] using this
      · rw [if_neg hff]; exact this

/-- `fan_out` keeps the ledger. -/
theorem fanOut_ledger {vfree : Bool} {i : Fin n} {M : Mem n N V L P} {m : N} {vis : N → Prop} {bag : Multiset (Pkt N L)}
    (hf : Fields sp g prop vis M) (h : Ledger sp g prop vis M bag) (hm : ¬ vis m) :
    Ledger sp g prop (fun a => a = m ∨ vis a) (fanOut sp vfree g i M m).1 (((fanOut sp vfree g i M m).2 : Multiset (Pkt N L)) + bag) := by
  have hp : (fun a => M.prop (a, false)) = prop := funext hf.same
  have hout : ∀ s, (fanOut sp vfree g i M m).1.out s = if s.1 = m then (stage sp g prop s).map (fun e => (e.1, (e.2, false))) else M.out s := by
    rintro ⟨a, b⟩
    have h0 := ((h (a, b)).2 · |>.1)
    simp only at h0 ⊢
    unfold fanOut stage
    simp only [hp, hf.same]
    by_cases hff : sp.fissile (g.vertex m) (prop m) = true
    · rw [if_pos hff]
      by_cases ham : a = m
      · subst ham
        cases b <;> simp [fissile, hff]
      · simp [Function.update, ham]
    · rw [if_neg hff]
      by_cases ham : a = m
      · subst ham
        rw [h0 hm]
        cases b <;> simp [fissile, hff]
      · simp [ham]
  have hprop := fanOut_prop (sp := sp) (vfree := vfree) (g := g) (i := i) (M := M) (m := m)
  have howed : ∀ s : Twin N, (((fanOut sp vfree g i M m).2 : Multiset (Pkt N L)).map (owed s)).sum =
      if s.1 = m then ((((stage sp g prop s).map fun e => (e.1, (e.2, false))) : List (L × Twin N)) : Multiset (L × Twin N)) else 0 := by
    rintro ⟨a, b⟩
    rw [fanOut_sends hf.same, Multiset.map_coe, Multiset.sum_coe, List.map_append, List.sum_append, List.map_append, List.sum_append,
      owed_scatter, owed_scatter]
    have : ((if fissile sp g prop m = true then [Pkt.create m] else []).map (owed (L := L) (a, b))).sum = 0 := by
      split_ifs <;> simp [owed]
    rw [this, zero_add]
    by_cases ham : a = m
    · subst ham
      cases b <;> simp
    · have : m ≠ a := Ne.symm ham
      simp [ham, this]
  have hdue : ∀ (s : Twin N) q, (((fanOut sp vfree g i M m).2 : Multiset (Pkt N L)).map (due sp g prop s q)).sum =
      if s.1 = m then ((((stage sp g prop s).flatMap fun e => termini sp g prop q e.1 e.2) : List (L × Twin N)) : Multiset (L × Twin N)) else 0 := by
    rintro ⟨a, b⟩ q
    rw [fanOut_sends hf.same, Multiset.map_coe, Multiset.sum_coe, List.map_append, List.sum_append, List.map_append, List.sum_append,
      due_scatter, due_scatter]
    have : ((if fissile sp g prop m = true then [Pkt.create m] else []).map (due sp g prop (a, b) q)).sum = 0 := by
      split_ifs <;> simp [due]
    rw [this, zero_add]
    by_cases ham : a = m
    · subst ham
      cases b <;> simp
    · have : m ≠ a := Ne.symm ham
      simp [ham, this]
  intro s
  · simp only [Multiset.map_add, Multiset.sum_add]
    rw [hout, howed]
    simp only [hdue]
    by_cases ham : s.1 = m
    · simp only [ham, if_true]
      refine ⟨fun _ => ⟨0, ?_, ?_⟩, fun hc => absurd (.inl trivial) hc⟩
      · rw [((h s).2 (ham ▸ hm)).2.1, zero_add, add_zero]
      · rw [((h s).2 (ham ▸ hm)).2.2, zero_add, add_zero]
    · simp only [ham, if_false, false_or, zero_add]
      rw [hprop s (fun hc => ham (by rw [hc]))]
      exact h s

/-- `fan_in` changes no other fields. -/
theorem fanIn_fields {null : L} {M : Mem n N V L P} {m : N} {c : Option (Twin N × L)} :
    ∃ out, (fanIn sp null M m c).1 = { M with out := out } := by
  unfold fanIn
  split
  · exact ⟨_, rfl⟩
  · split_ifs
    · split <;> exact ⟨_, rfl⟩
    · exact ⟨_, rfl⟩

/-- `fan_in` keeps the ledger. -/
theorem fanIn_ledger {null : L} {M : Mem n N V L P} {m : N} {c : Option (Twin N × L)} {vis : N → Prop} {bag : Multiset (Pkt N L)}
    (hf : Fields sp g prop vis M) (h : Ledger sp g prop vis M (Pkt.visit m c ::ₘ bag)) (hm : vis m) :
    Ledger sp g prop vis (fanIn sp null M m c).1 (((fanIn sp null M m c).2 : Multiset (Pkt N L)) + bag) := by
  rcases c with _ | ⟨o, l⟩
  · intro s
    have := h s
    simpa [fanIn, owed, due] using this
  · have ho : vis o.1 := by
      by_contra hc
      have := ((h o).2 hc).2.1
      simp [owed] at this
    obtain ⟨A, hA, hA'⟩ := (h o).1 ho
    simp only [Multiset.map_cons, Multiset.sum_cons, owed, due, if_true] at hA hA'
    -- it's enough to look at the node whose edge it is
    have key : ∀ (e' : List (L × Twin N)) (sends : List (Pkt N L)),
        (∀ s, s ≠ o → (sends.map (owed s)).sum = 0 ∧ ∀ q, (sends.map (due sp g prop s q)).sum = 0) →
        (∃ B, (e' : Multiset (L × Twin N)) = B + (sends.map (owed o)).sum ∧
          B + (sends.map (due sp g prop o (M.prop o))).sum = termini sp g prop (M.prop o) l m) →
        ∀ M' : Mem n N V L P, M'.prop = M.prop → (∀ s, s ≠ o → M'.out s = M.out s) →
          (∃ r, (M.out o).Perm ((l, (m, false)) :: r) ∧ (M'.out o).Perm (e' ++ r)) →
          Ledger sp g prop vis M' ((sends : Multiset (Pkt N L)) + bag) := by
      intro e' sends h1 ⟨B, hB, hB'⟩ M' hp hs ⟨r, hr, hso⟩ s
      by_cases hso' : s = o
      · subst hso'
        refine ⟨fun _ => ⟨A + B, ?_, ?_⟩, fun hc => absurd ho hc⟩
        · have hr' : (r : Multiset (L × Twin N)) = A + (bag.map (owed s)).sum := by
            have := Multiset.coe_eq_coe.2 hr
            rw [hA, ← Multiset.cons_coe, ← Multiset.singleton_add, add_left_comm] at this
            exact (add_left_cancel this).symm
          rw [Multiset.coe_eq_coe.2 hso, ← Multiset.coe_add, hB, hr', Multiset.map_add, Multiset.sum_add, Multiset.map_coe, Multiset.sum_coe]
          abel
        · rw [hp, ← hA', Multiset.map_add, Multiset.sum_add, Multiset.map_coe, Multiset.sum_coe, ← hB']
          abel
      · have := h s
        rw [hp, hs s hso']
        simp only [Multiset.map_cons, Multiset.sum_cons, owed, due, if_neg (Ne.symm hso'), zero_add] at this
        simp only [Multiset.map_add, Multiset.sum_add, Multiset.map_coe, Multiset.sum_coe, (h1 s hso').1, (h1 s hso').2, zero_add]
        exact this
    have hmem : (l, (m, false)) ∈ M.out o := by
      have : (l, (m, false)) ∈ (M.out o : Multiset (L × Twin N)) := by rw [hA]; simp
      exact this
    have halter : ∀ e', (∀ s, s ≠ o → (alter M o (l, (m, false)) e').out s = M.out s) ∧
        ∃ r, (M.out o).Perm ((l, (m, false)) :: r) ∧ ((alter M o (l, (m, false)) e').out o).Perm ([e'] ++ r) := by
      intro e'
      refine ⟨fun s hs => Function.update_of_ne hs _ _, ?_⟩
      simp only [alter, Function.update_self]
      exact replace_perm e' hmem
    simp only [fanIn]
    by_cases hs : M.split m = true
    · have hff := ((hf.split m).1 hs).2
      rw [if_pos hs, hf.same]
      rcases ha : sp.inAna.label (M.prop o) l (prop m) with _ | a <;> rcases hc : sp.inCata.label (M.prop o) l (prop m) with _ | c
      · refine key [(null, (m, false))] _ (fun s hs' => ⟨by simp [owed, Ne.symm hs'], by simp [due]⟩) ⟨0, by simp [owed], ?_⟩ _ rfl
          (halter _).1 (halter _).2
        simp [due, termini, hff, ha, hc]
      · refine key [(c, (m, true))] _ (fun s hs' => ⟨by simp, by simp⟩) ⟨{(c, (m, true))}, by simp, ?_⟩ _ rfl (halter _).1 (halter _).2
        simp [termini, hff, ha, hc]
      · refine key [(a, (m, false))] _ (fun s hs' => ⟨by simp, by simp⟩) ⟨{(a, (m, false))}, by simp, ?_⟩ _ rfl (halter _).1 (halter _).2
        simp [termini, hff, ha, hc]
      · refine key [(a, (m, false))] _ (fun s hs' => ⟨by simp [owed], by simp [due, Ne.symm hs']⟩) ⟨{(a, (m, false))}, by simp [owed], ?_⟩ _ rfl
          (halter _).1 (halter _).2
        simp only [due, termini, hff, ha, hc, if_true, List.map_cons, List.map_nil, List.sum_cons, List.sum_nil, add_zero, Option.toList]
        rfl
    · rw [if_neg hs]
      have hff : ¬ fissile sp g prop m = true := fun hc => hs ((hf.split m).2 ⟨hm, hc⟩)
      refine key [(l, (m, false))] [] (fun s hs' => ⟨by simp, by simp⟩) ⟨{(l, (m, false))}, by simp, ?_⟩ _ rfl (fun _ _ => rfl) ?_
      · simp [termini, hff]
      · exact ⟨_, List.perm_cons_erase hmem, List.perm_cons_erase hmem⟩

/-! ## The task -/

variable {null : L} {vfree : Bool} {limit : Nat} {addr : Twin N → Nat} {hn : 0 < n}

/-- What a worker does with a packet. -/
theorem splitIt_cases (i : Fin n) (s : Trav.Job n N (Mem n N V L P)) (p : Pkt N L) : ∃ sample stop,
    (∀ j, j ≠ i → stop j = s.stop j) ∧ (stop i = false → s.stop i = false) ∧ (stop i = true → s.stop i = true ∨ s.killed ≠ 0) ∧
    (((s.err i ≠ 0 ∨ stop i = true) ∧
        splitIt sp null vfree limit g i s p = discard i { s with sample := sample, stop := stop } p) ∨
      (s.err i = 0 ∧ stop i = false ∧
        splitIt sp null vfree limit g i s p = act sp null vfree limit g i { s with sample := sample, stop := stop } p)) := by
  obtain ⟨sample, stop, e, h1, h2, h3⟩ := Trav.poll_eq s i
  refine ⟨sample, stop, h1, h2, h3, ?_⟩
  simp only [splitIt, e]
  by_cases c : s.err i ≠ 0 ∨ stop i = true
  · exact .inl ⟨c, by rw [if_pos c]⟩
  · exact .inr ⟨by simpa using (not_or.1 c).1, by simpa using (not_or.1 c).2, by rw [if_neg c]⟩

theorem discard_eq (i : Fin n) (s : Trav.Job n N (Mem n N V L P)) (p : Pkt N L) :
    ∃ st, discard i s p = ({ s with mem := { s.mem with stock := st } }, [], false) := by
  cases p <;> exact ⟨_, rfl⟩

/-- The packets that aren't visits. -/
def Pkt.node : Pkt N L → Option N
  | .visit m _ => some m
  | _ => none

/-- What's done with a node received before. -/
theorem act_again {i : Fin n} {s : Trav.Job n N (Mem n N V L P)} {m : N} {c : Option (Twin N × L)} (h : m ∈ s.seen i) :
    act sp null vfree limit g i s (.visit m c) = ({ s with mem := (fanIn sp null s.mem m c).1 }, (fanIn sp null s.mem m c).2, false) := by
  simp only [act, if_pos h]

/-- What's done with a node received for the first time. -/
theorem act_first {i : Fin n} {s : Trav.Job n N (Mem n N V L P)} {m : N} {c : Option (Twin N × L)} (h : m ∉ s.seen i) :
    act sp null vfree limit g i s (.visit m c) = ({ s with seen := Function.update s.seen i (s.seen i ++ [m]), mem := (fanIn sp null (fanOut sp vfree g i s.mem m).1 m c).1 },
      (fanOut sp vfree g i s.mem m).2 ++ (fanIn sp null (fanOut sp vfree g i s.mem m).1 m c).2, false) := by
  simp only [act, if_neg h]

/-- Anything else leaves the nodes received as they are, and sends nothing. -/
theorem act_mail {i : Fin n} {s : Trav.Job n N (Mem n N V L P)} {p : Pkt N L} (h : p.node = none) :
    ∃ err mem, act sp null vfree limit g i s p = ({ s with err := err, mem := mem }, [], false) ∧ (∀ j, j ≠ i → err j = s.err j) ∧
      (err i = 0 → s.err i = 0 ∨ err i = s.err i) ∧ mem.prop = s.mem.prop := by
  cases p with
  | visit m c => cases h
  | connect o e => exact ⟨_, _, rfl, fun _ _ => rfl, fun h => .inl h, rfl⟩
  | disconnect o e => exact ⟨_, _, rfl, fun _ _ => rfl, fun h => .inl h, rfl⟩
  | create m =>
    by_cases hl : limit ≠ 0 ∧ limit < s.mem.count i
    · refine ⟨Function.update s.err i Build.intOvf, keep { s.mem with count := Function.update s.mem.count i (s.mem.count i + 1) } i (m, true),
        by simp only [act, if_pos hl], fun j hj => Function.update_of_ne hj _ _, fun h => ?_, rfl⟩
      simp [Build.intOvf] at h
    · exact ⟨s.err, keep { s.mem with count := Function.update s.mem.count i (s.mem.count i + 1) } i (m, true),
        by simp only [act, if_neg hl], fun j hj => rfl, fun h => .inl h, rfl⟩

theorem fanIn_nodes {M : Mem n N V L P} {m : N} {c : Option (Twin N × L)} : (fanIn sp null M m c).2.filterMap Pkt.node = [] := by
  unfold fanIn
  split
  · rfl
  · split_ifs
    · split <;> rfl
    · rfl

theorem scatter_nodes (s : Twin N) (es : List (L × N)) : (scatter s es).filterMap Pkt.node = es.map (·.2) := by
  unfold scatter
  induction es with
  | nil => rfl
  | cons e es ih => simpa [Pkt.node] using ih

theorem fanOut_nodes {i : Fin n} {M : Mem n N V L P} {m : N} (hp : ∀ m, M.prop (m, false) = prop m) :
    (fanOut sp vfree g i M m).2.filterMap Pkt.node = arcs sp g prop m := by
  rw [fanOut_sends hp, List.filterMap_append, List.filterMap_append, scatter_nodes, scatter_nodes]
  split_ifs <;> simp [Pkt.node, arcs]

theorem fanOut_same {i : Fin n} {M : Mem n N V L P} {m : N} (hp : ∀ m, M.prop (m, false) = prop m) (a : N) :
    (fanOut sp vfree g i M m).1.prop (a, false) = prop a := by
  unfold fanOut
  simp only
  by_cases hff : sp.fissile (g.vertex m) (M.prop (m, false)) = true
  · rw [if_pos hff]
    simp only [ne_eq, Prod.mk.injEq, Bool.false_eq_true, and_false, not_false_eq_true, Function.update_of_ne]
    exact hp a
  · rw [if_neg hff]; exact hp a

theorem fanIn_prop {M : Mem n N V L P} {m : N} {c : Option (Twin N × L)} : (fanIn sp null M m c).1.prop = M.prop := by
  obtain ⟨out, e⟩ := fanIn_fields (sp := sp) (null := null) (M := M) (m := m) (c := c)
  rw [e]

/-- The task traverses the graph, but for the edges that are dropped. -/
def rover (sp : Splitter V P L) (null : L) (vfree : Bool) (limit : Nat) (g : Gr N V L) (prop : N → P) (addr : Twin N → Nat) (hn : 0 < n) :
    Rover (splitting sp null vfree limit g addr hn) (arcs sp g prop) where
  I s := ∀ m, s.mem.prop (m, false) = prop m
  node := Pkt.node
  weight _ := 1
  lane m := Build.lane hn (addr (m, false))
  seen s := s.seen
  ok s i := s.err i = 0 ∧ s.stop i = false
  dest p m h := by cases p <;> cases h; rfl
  inv s p h := by
    change ∀ m, (splitIt sp null vfree limit g (Build.lane hn (addr p.receiver)) s p).1.mem.prop (m, false) = prop m
    obtain ⟨sample, stop, -, -, -, ⟨-, e⟩ | ⟨-, -, e⟩⟩ :=
      splitIt_cases (sp := sp) (null := null) (vfree := vfree) (limit := limit) (g := g) (Build.lane hn (addr p.receiver)) s p <;> rw [e]
    · obtain ⟨st, e⟩ := discard_eq (Build.lane hn (addr p.receiver)) { s with sample := sample, stop := stop } p
      rw [e]; exact h
    · rcases hp : p.node with _ | m
      · obtain ⟨err, mem, e, -, -, h3⟩ := act_mail (sp := sp) (null := null) (vfree := vfree) (limit := limit) (g := g)
          (i := Build.lane hn (addr p.receiver)) (s := { s with sample := sample, stop := stop }) hp
        rw [e]; simp only [h3]; exact h
      · cases p with
        | visit m c =>
          by_cases hm : m ∈ s.seen (Build.lane hn (addr (Pkt.visit m c).receiver))
          · rw [act_again (by exact hm)]
            simp only [fanIn_prop]; exact h
          · rw [act_first (by exact hm)]
            simp only [fanIn_prop]
            exact fanOut_same h
        | _ => cases hp
  others s p j hj := by
    change (splitIt sp null vfree limit g (Build.lane hn (addr p.receiver)) s p).1.seen j = _ ∧
      ((splitIt sp null vfree limit g (Build.lane hn (addr p.receiver)) s p).1.err j = 0 ∧
        (splitIt sp null vfree limit g (Build.lane hn (addr p.receiver)) s p).1.stop j = false → _)
    have hj' : j ≠ Build.lane hn (addr p.receiver) := hj
    obtain ⟨sample, stop, h1, -, -, ⟨-, e⟩ | ⟨-, -, e⟩⟩ :=
      splitIt_cases (sp := sp) (null := null) (vfree := vfree) (limit := limit) (g := g) (Build.lane hn (addr p.receiver)) s p <;> rw [e]
    · obtain ⟨st, e⟩ := discard_eq (Build.lane hn (addr p.receiver)) { s with sample := sample, stop := stop } p
      rw [e]; exact ⟨rfl, fun h => by rw [← h1 j hj']; exact h⟩
    · rcases hp : p.node with _ | m
      · obtain ⟨err, mem, e, h2, -, h3⟩ := act_mail (sp := sp) (null := null) (vfree := vfree) (limit := limit) (g := g)
          (i := Build.lane hn (addr p.receiver)) (s := { s with sample := sample, stop := stop }) hp
        rw [e]; exact ⟨rfl, fun h => by rw [← h1 j hj']; exact ⟨(h2 j hj').symm.trans h.1, h.2⟩⟩
      · cases p with
        | visit m c =>
          by_cases hm : m ∈ s.seen (Build.lane hn (addr (Pkt.visit m c).receiver))
          · rw [act_again (by exact hm)]
            exact ⟨rfl, fun h => by rw [← h1 j hj']; exact h⟩
          · rw [act_first (by exact hm)]
            exact ⟨Function.update_of_ne hj' _ _, fun h => by rw [← h1 j hj']; exact h⟩
        | _ => cases hp
  undeferred s p := by
    change (splitIt sp null vfree limit g (Build.lane hn (addr p.receiver)) s p).2.2 = false
    obtain ⟨sample, stop, -, -, -, ⟨-, e⟩ | ⟨-, -, e⟩⟩ :=
      splitIt_cases (sp := sp) (null := null) (vfree := vfree) (limit := limit) (g := g) (Build.lane hn (addr p.receiver)) s p <;> rw [e]
    · obtain ⟨st, e⟩ := discard_eq (Build.lane hn (addr p.receiver)) { s with sample := sample, stop := stop } p
      rw [e]
    · rcases hp : p.node with _ | m
      · obtain ⟨err, mem, e, -⟩ := act_mail (sp := sp) (null := null) (vfree := vfree) (limit := limit) (g := g)
          (i := Build.lane hn (addr p.receiver)) (s := { s with sample := sample, stop := stop }) hp
        rw [e]
      · cases p with
        | visit m c =>
          by_cases hm : m ∈ s.seen (Build.lane hn (addr (Pkt.visit m c).receiver))
          · rw [act_again (by exact hm)]
          · rw [act_first (by exact hm)]
        | _ => cases hp
  mail s p hp := by
    change (splitIt sp null vfree limit g (Build.lane hn (addr p.receiver)) s p).1.seen (Build.lane hn (addr p.receiver)) = _ ∧
      (splitIt sp null vfree limit g (Build.lane hn (addr p.receiver)) s p).2.1.filterMap _ = _ ∧
      ((splitIt sp null vfree limit g (Build.lane hn (addr p.receiver)) s p).2.1.map _).sum < 1 ∧
      ((splitIt sp null vfree limit g (Build.lane hn (addr p.receiver)) s p).1.err (Build.lane hn (addr p.receiver)) = 0 ∧
        (splitIt sp null vfree limit g (Build.lane hn (addr p.receiver)) s p).1.stop (Build.lane hn (addr p.receiver)) = false →
        s.err (Build.lane hn (addr p.receiver)) = 0 ∧ s.stop (Build.lane hn (addr p.receiver)) = false)
    obtain ⟨sample, stop, -, h2, -, ⟨-, e⟩ | ⟨h3, -, e⟩⟩ :=
      splitIt_cases (sp := sp) (null := null) (vfree := vfree) (limit := limit) (g := g) (Build.lane hn (addr p.receiver)) s p <;> rw [e]
    · obtain ⟨st, e⟩ := discard_eq (Build.lane hn (addr p.receiver)) { s with sample := sample, stop := stop } p
      rw [e]; exact ⟨rfl, rfl, by simp, fun h => ⟨h.1, h2 h.2⟩⟩
    · obtain ⟨err, mem, e, -⟩ := act_mail (sp := sp) (null := null) (vfree := vfree) (limit := limit) (g := g)
        (i := Build.lane hn (addr p.receiver)) (s := { s with sample := sample, stop := stop }) hp
      rw [e]; exact ⟨rfl, rfl, by simp, fun h => ⟨h3, h2 h.2⟩⟩
  step s p m hI hp := by
    cases p with
    | visit k c =>
      cases hp
      change ((splitIt sp null vfree limit g (Build.lane hn (addr (m, false))) s (.visit m c)).1.seen (Build.lane hn (addr (m, false))) = _ ∧
        (splitIt sp null vfree limit g (Build.lane hn (addr (m, false))) s (.visit m c)).2.1.filterMap _ = _ ∧
        ((splitIt sp null vfree limit g (Build.lane hn (addr (m, false))) s (.visit m c)).1.err (Build.lane hn (addr (m, false))) = 0 ∧
          (splitIt sp null vfree limit g (Build.lane hn (addr (m, false))) s (.visit m c)).1.stop (Build.lane hn (addr (m, false))) = false →
          (s.err (Build.lane hn (addr (m, false))) = 0 ∧ s.stop (Build.lane hn (addr (m, false))) = false) ∧ _)) ∨
        (_ ∧ (splitIt sp null vfree limit g (Build.lane hn (addr (m, false))) s (.visit m c)).1.seen (Build.lane hn (addr (m, false))) = _ ∧
        (∀ q ∈ (splitIt sp null vfree limit g (Build.lane hn (addr (m, false))) s (.visit m c)).2.1.filterMap _, _) ∧
        ((splitIt sp null vfree limit g (Build.lane hn (addr (m, false))) s (.visit m c)).1.err (Build.lane hn (addr (m, false))) = 0 ∧
          (splitIt sp null vfree limit g (Build.lane hn (addr (m, false))) s (.visit m c)).1.stop (Build.lane hn (addr (m, false))) = false →
          (s.err (Build.lane hn (addr (m, false))) = 0 ∧ s.stop (Build.lane hn (addr (m, false))) = false) ∧
          ∀ q ∈ arcs sp g prop m, q ∈ (splitIt sp null vfree limit g (Build.lane hn (addr (m, false))) s (.visit m c)).2.1.filterMap _))
      obtain ⟨sample, stop, -, h2, -, ⟨h3, e⟩ | ⟨h3, -, e⟩⟩ :=
        splitIt_cases (sp := sp) (null := null) (vfree := vfree) (limit := limit) (g := g) (Build.lane hn (addr (m, false))) s (.visit m c) <;> rw [e]
      · refine .inl ⟨rfl, rfl, fun h => ?_⟩
        rcases h3 with h3 | h3
        · exact absurd h.1 h3
        · exact absurd (h3.symm.trans h.2) (by decide)
      · by_cases hm : m ∈ s.seen (Build.lane hn (addr (m, false)))
        · rw [act_again (by exact hm)]
          exact .inl ⟨rfl, fanIn_nodes, fun h => ⟨⟨h3, h2 h.2⟩, hm⟩⟩
        · rw [act_first (by exact hm)]
          have hI' : ∀ a, s.mem.prop (a, false) = prop a := hI
          have hsend : ((fanOut sp vfree g (Build.lane hn (addr (m, false))) s.mem m).2 ++
              (fanIn sp null (fanOut sp vfree g (Build.lane hn (addr (m, false))) s.mem m).1 m c).2).filterMap Pkt.node = arcs sp g prop m := by
            rw [List.filterMap_append, fanIn_nodes, List.append_nil, fanOut_nodes hI']
          refine .inr ⟨hm, Function.update_self _ _ _, fun q hq => ?_, fun h => ⟨⟨h3, h2 h.2⟩, fun q hq => ?_⟩⟩
          · rw [← hsend]; exact hq
          · rw [← hsend] at hq; exact hq
    | _ => cases hp
  env e s := ⟨rfl, id, fun i h => h⟩

/-- Whether a node has been received. -/
def vis (addr : Twin N → Nat) (hn : 0 < n) (s : Trav.Job n N (Mem n N V L P)) (m : N) : Prop := m ∈ s.seen (Build.lane hn (addr (m, false)))

/-- Whether a packet is a request to keep a node on a given lane. -/
def made (addr : Twin N → Nat) (hn : 0 < n) (i : Fin n) : Pkt N L → Nat
  | .create m => if Build.lane hn (addr (m, true)) = i then 1 else 0
  | _ => 0

/-- The invariant. -/
structure Inv (sp : Splitter V P L) (g : Gr N V L) (prop : N → P) (limit : Nat) (addr : Twin N → Nat) (hn : 0 < n)
    (s : Trav.Job n N (Mem n N V L P)) (bag : Multiset (Pkt N L)) : Prop where
  fields : Fields sp g prop (vis addr hn s) s.mem
  ledger : (∀ i, s.err i = 0 ∧ s.stop i = false) → Ledger sp g prop (vis addr hn s) s.mem bag
  count_le : ∀ i, s.mem.count i + (bag.map (made addr hn i)).sum ≤
    homes g addr hn i + splits sp g prop addr hn i ((List.finRange n).flatMap s.seen)
  count_eq : (∀ i, s.err i = 0 ∧ s.stop i = false) → ∀ i, s.mem.count i + (bag.map (made addr hn i)).sum =
    homes g addr hn i + splits sp g prop addr hn i ((List.finRange n).flatMap s.seen)
  count_ge : ∀ i, homes g addr hn i ≤ s.mem.count i
  under : ∀ i, s.err i = 0 → limit = 0 ∨ s.mem.count i ≤ max (homes g addr hn i) (limit + 1)
  over : ∀ i, s.err i ≠ 0 → s.err i = Build.intOvf ∧ limit ≠ 0 ∧ limit + 2 ≤ s.mem.count i ∧ homes g addr hn i < s.mem.count i

theorem fanIn_made {M : Mem n N V L P} {m : N} {c : Option (Twin N × L)} (i : Fin n) : ((fanIn sp null M m c).2.map (made addr hn i)).sum = 0 := by
  unfold fanIn
  split
  · rfl
  · split_ifs
    · split <;> rfl
    · rfl

theorem scatter_made (s : Twin N) (es : List (L × N)) (i : Fin n) : ((scatter s es).map (made addr hn i)).sum = 0 := by
  unfold scatter
  induction es with
  | nil => rfl
  | cons e es ih => simpa [made] using ih

theorem fanOut_made {j : Fin n} {M : Mem n N V L P} {m : N} (hp : ∀ m, M.prop (m, false) = prop m) (i : Fin n) :
    ((fanOut sp vfree g j M m).2.map (made addr hn i)).sum = splits sp g prop addr hn i [m] := by
  rw [fanOut_sends hp, List.map_append, List.sum_append, List.map_append, List.sum_append, scatter_made, scatter_made]
  by_cases hf : fissile sp g prop m = true
  · by_cases hl : Build.lane hn (addr (m, true)) = i <;> simp [hf, hl, made, splits]
  · simp [hf, splits]

theorem fanOut_count {j : Fin n} {M : Mem n N V L P} {m : N} : (fanOut sp vfree g j M m).1.count = M.count := by
  unfold fanOut
  simp only
  by_cases hff : sp.fissile (g.vertex m) (M.prop (m, false)) = true
  · rw [if_pos hff]
  · rw [if_neg hff]

theorem inv_reach : ∀ x, Bag.Reach (splitting sp null vfree limit g addr hn) (.visit g.base none) (Trav.start (mem g prop addr hn)) x →
    Inv sp g prop limit addr hn x.1 x.2 := by
  intro x hx
  induction hx with
  | init =>
    refine ⟨⟨fun m => rfl, fun m => ?_, fun m hm => ?_, fun m _ => rfl, fun m hm => ?_⟩, fun _ s => ⟨fun hm => ?_, fun _ => ⟨rfl, ?_, fun q => ?_⟩⟩,
      fun i => ?_, fun _ i => ?_, fun i => le_rfl, fun i _ => .inr ?_, fun i hi => absurd rfl hi⟩
    · simp [Trav.start, mem, vis]
    · simp [Trav.start, vis] at hm
    · simp [Trav.start, vis] at hm
    · simp [Trav.start, vis] at hm
    · simp [owed]
    · simp [due]
    · simp [Trav.start, mem, made, homes]
    · simp [Trav.start, mem, made, homes, splits]
    · simp [Trav.start, mem, homes]
  | step hr hs ih =>
    cases hs with
    | env e s bag => exact ⟨ih.fields, ih.ledger, ih.count_le, ih.count_eq, ih.count_ge, ih.under, ih.over⟩
    | handle s p rest =>
      have hI := ((rover sp null vfree limit g prop addr hn).inv_reach (a := g.base) (fun _ => rfl) (fun _ => rfl) rfl _ hr)
      generalize hi : Build.lane hn (addr p.receiver) = i
      change Inv sp g prop limit addr hn (splitIt sp null vfree limit g (Build.lane hn (addr p.receiver)) s p).1
        (((splitIt sp null vfree limit g (Build.lane hn (addr p.receiver)) s p).2.1 : Multiset (Pkt N L)) +
          (if (splitIt sp null vfree limit g (Build.lane hn (addr p.receiver)) s p).2.2 = true then {p} else 0) + rest)
      rw [hi]
      have hle := ih.count_le
      have heq := ih.count_eq
      simp only [Multiset.map_cons, Multiset.sum_cons] at hle heq
      obtain ⟨sample, stop, h1, h2, h3, ⟨hc, e⟩ | ⟨he, hst, e⟩⟩ :=
        splitIt_cases (sp := sp) (null := null) (vfree := vfree) (limit := limit) (g := g) i s p <;> rw [e]
      · obtain ⟨st, e⟩ := discard_eq i { s with sample := sample, stop := stop } p
        rw [e]
        have hno : ¬ ∀ j, s.err j = 0 ∧ stop j = false := by
          intro h
          rcases hc with hc | hc
          · exact hc (h i).1
          · exact absurd (hc.symm.trans (h i).2) (by decide)
        simp only [Multiset.coe_nil, Bool.false_eq_true, if_false, zero_add]
        refine ⟨⟨ih.fields.1, ih.fields.2, ih.fields.3, ih.fields.4, ih.fields.5⟩, fun h => absurd h hno, fun j => ?_, fun h => absurd h hno,
          ih.count_ge, ih.under, ih.over⟩
        exact le_trans (Nat.add_le_add_left (Nat.le_add_left _ _) _) (hle j)
      · have hok : (∀ j, s.err j = 0 ∧ stop j = false) → ∀ j, s.err j = 0 ∧ s.stop j = false := by
          intro h j
          by_cases hj : j = i
          · rw [hj]; exact ⟨he, h2 hst⟩
          · rw [← h1 j hj]; exact h j
        cases p with
        | connect o d =>
          simp only [act, Multiset.coe_nil, Bool.false_eq_true, if_false, zero_add]
          simp only [made, zero_add] at hle heq
          refine ⟨⟨ih.fields.1, ih.fields.2, ih.fields.3, ih.fields.4, ih.fields.5⟩, fun h t => ?_, hle, fun h => heq (hok h), ih.count_ge, ih.under, ih.over⟩
          have := ih.ledger (hok h) t
          simp only [Multiset.map_cons, Multiset.sum_cons, owed, due, zero_add] at this ⊢
          by_cases hot : o = t
          · subst hot
            simp only [if_true, Function.update_self] at this ⊢
            refine ⟨fun hv => ?_, fun hv => ?_⟩
            · obtain ⟨A, hA, hA'⟩ := this.1 hv
              refine ⟨A + {d}, ?_, ?_⟩
              · rw [← Multiset.cons_coe, hA, ← Multiset.singleton_add]; abel
              · rw [← hA']; abel
            · have := (this.2 hv).2.2 (s.mem.prop o)
              simp at this
          · simp only [hot, if_false, Function.update_of_ne (Ne.symm hot), zero_add] at this ⊢
            exact this
        | disconnect o d =>
          simp only [act, Multiset.coe_nil, Bool.false_eq_true, if_false, zero_add]
          simp only [made, zero_add] at hle heq
          refine ⟨⟨ih.fields.1, ih.fields.2, ih.fields.3, ih.fields.4, ih.fields.5⟩, fun h t => ?_, hle, fun h => heq (hok h), ih.count_ge, ih.under, ih.over⟩
          have := ih.ledger (hok h) t
          simp only [Multiset.map_cons, Multiset.sum_cons, owed, due, zero_add] at this ⊢
          by_cases hot : o = t
          · subst hot
            simp only [if_true, Function.update_self] at this ⊢
            refine ⟨fun hv => ?_, fun hv => ?_⟩
            · obtain ⟨A, hA, hA'⟩ := this.1 hv
              refine ⟨A, ?_, hA'⟩
              have hd : d ∈ s.mem.out o := by
                have : d ∈ (s.mem.out o : Multiset (L × Twin N)) := by rw [hA]; simp
                exact this
              have h5 := Multiset.coe_eq_coe.2 (List.perm_cons_erase hd)
              rw [hA, ← Multiset.cons_coe, ← Multiset.singleton_add, add_left_comm] at h5
              exact (add_left_cancel h5).symm
            · have := (this.2 hv).2.1
              simp at this
          · simp only [hot, if_false, Function.update_of_ne (Ne.symm hot), zero_add] at this ⊢
            exact this
        | create m =>
          have hmi : Build.lane hn (addr (m, true)) = i := hi
          have hmade : ∀ j, (made addr hn j (Pkt.create m : Pkt N L)) = if j = i then 1 else 0 := by
            intro j
            simp only [made, hmi]
            by_cases hj : j = i
            · rw [hj]
            · rw [if_neg (Ne.symm hj), if_neg hj]
          simp only [hmade] at hle heq
          have hcnt : ∀ j, Function.update s.mem.count i (s.mem.count i + 1) j = s.mem.count j + if j = i then 1 else 0 := by
            intro j
            by_cases hj : j = i
            · subst hj; simp
            · simp [hj]
          have hge : ∀ j, homes g addr hn j ≤ Function.update s.mem.count i (s.mem.count i + 1) j := by
            intro j
            rw [hcnt]
            exact le_trans (ih.count_ge j) (Nat.le_add_right _ _)
          have hledger : (∀ j, s.err j = 0 ∧ stop j = false) → Ledger sp g prop (vis addr hn s) s.mem rest := by
            intro h t
            have := ih.ledger (hok h) t
            simpa only [Multiset.map_cons, Multiset.sum_cons, owed, due, zero_add] using this
          by_cases hl : limit ≠ 0 ∧ limit < s.mem.count i
          · simp only [act, if_pos hl, Multiset.coe_nil, Bool.false_eq_true, if_false, zero_add, keep]
            have hno : ¬ ∀ j, Function.update s.err i Build.intOvf j = 0 ∧ stop j = false := by
              intro h
              have := (h i).1
              simp [Build.intOvf] at this
            refine ⟨⟨ih.fields.1, ih.fields.2, ih.fields.3, ih.fields.4, ih.fields.5⟩, fun h => absurd h hno, fun j => ?_,
              fun h => absurd h hno, fun j => (hge j), fun j hj => ?_, fun j hj => ?_⟩
            · have := hle j
              simp only [hcnt]; omega
            · by_cases hji : j = i
              · subst hji; simp [Build.intOvf] at hj
              · simp only [Function.update_of_ne hji] at hj ⊢
                exact ih.under j hj
            · by_cases hji : j = i
              · subst hji
                simp only [Function.update_self]
                exact ⟨trivial, hl.1, by omega, Nat.lt_succ_of_le (ih.count_ge j)⟩
              · simp only [Function.update_of_ne hji] at hj ⊢
                exact ih.over j hj
          · simp only [act, if_neg hl, Multiset.coe_nil, Bool.false_eq_true, if_false, zero_add, keep]
            refine ⟨⟨ih.fields.1, ih.fields.2, ih.fields.3, ih.fields.4, ih.fields.5⟩, fun h => hledger h, fun j => ?_,
              fun h j => ?_, fun j => (hge j), fun j hj => ?_, fun j hj => ?_⟩
            · have := hle j
              simp only [hcnt]; omega
            · have := heq (hok h) j
              simp only [hcnt]; omega
            · by_cases hji : j = i
              · subst hji
                simp only [Function.update_self]
                by_cases h0 : limit = 0
                · exact .inl h0
                · have : s.mem.count j ≤ limit := by
                    by_contra hcc
                    exact hl ⟨h0, by omega⟩
                  exact .inr (le_trans (by omega) (le_max_right _ _))
              · simp only [Function.update_of_ne hji] at hj ⊢
                exact ih.under j hj
            · have hji : j ≠ i := fun hc => by subst hc; exact hj he
              simp only [Function.update_of_ne hji] at hj ⊢
              exact ih.over j hj
        | visit m c =>
          have hmi : Build.lane hn (addr (m, false)) = i := hi
          simp only [made, zero_add] at hle heq
          by_cases hm : m ∈ s.seen i
          · rw [act_again (by exact hm)]
            have hv : vis addr hn s m := by rw [vis, hmi]; exact hm
            obtain ⟨out, eo⟩ := fanIn_fields (sp := sp) (null := null) (M := s.mem) (m := m) (c := c)
            simp only [Bool.false_eq_true, if_false, add_zero]
            have hcount : (fanIn sp null s.mem m c).1.count = s.mem.count := by rw [eo]
            refine ⟨?_, fun h => fanIn_ledger ih.fields (ih.ledger (hok h)) hv, fun j => ?_, fun h j => ?_, fun j => ?_, fun j => ?_, fun j => ?_⟩
            · simp only [eo]
              exact ⟨ih.fields.1, ih.fields.2, ih.fields.3, ih.fields.4, ih.fields.5⟩
            · rw [Multiset.map_add, Multiset.sum_add, Multiset.map_coe, Multiset.sum_coe, fanIn_made, zero_add, hcount]; exact hle j
            · rw [Multiset.map_add, Multiset.sum_add, Multiset.map_coe, Multiset.sum_coe, fanIn_made, zero_add, hcount]; exact heq (hok h) j
            · rw [hcount]; exact ih.count_ge j
            · rw [hcount]; exact ih.under j
            · rw [hcount]; exact ih.over j
          · rw [act_first (by exact hm)]
            have hv : ¬ vis addr hn s m := by rw [vis, hmi]; exact hm
            simp only [Bool.false_eq_true, if_false, add_zero]
            obtain ⟨out, eo⟩ := fanIn_fields (sp := sp) (null := null) (M := (fanOut sp vfree g i s.mem m).1) (m := m) (c := c)
            have hcount : (fanIn sp null (fanOut sp vfree g i s.mem m).1 m c).1.count = s.mem.count := by rw [eo]; exact fanOut_count
            have hvis : vis addr hn { s with sample := sample, stop := stop, seen := Function.update s.seen i (s.seen i ++ [m]), mem := (fanIn sp null (fanOut sp vfree g i s.mem m).1 m c).1 } =
                fun a => a = m ∨ vis addr hn s a := by
              funext a
              refine propext ?_
              simp only [vis]
              by_cases hl : Build.lane hn (addr (a, false)) = i
              · rw [hl, Function.update_self]; simp [or_comm]
              · rw [Function.update_of_ne hl]
                exact ⟨.inr, fun h => h.resolve_left fun hc => hl (hc ▸ hmi)⟩
            have hsplits : ∀ j, splits sp g prop addr hn j ((List.finRange n).flatMap (Function.update s.seen i (s.seen i ++ [m]))) =
                splits sp g prop addr hn j [m] + splits sp g prop addr hn j ((List.finRange n).flatMap s.seen) := by
              intro j
              have hp := Rover.perm_flatMap_append (f := s.seen) (f' := Function.update s.seen i (s.seen i ++ [m])) (i := i) (m := m)
                (Function.update_self _ _ _) (fun j hj => Function.update_of_ne hj _ _)
              unfold splits
              rw [hp.countP_eq, ← List.singleton_append, List.countP_append]
            have hsum : ∀ j, ((((fanOut sp vfree g i s.mem m).2 ++ (fanIn sp null (fanOut sp vfree g i s.mem m).1 m c).2 : List (Pkt N L)) + rest :
                Multiset (Pkt N L)).map (made addr hn j)).sum = splits sp g prop addr hn j [m] + (rest.map (made addr hn j)).sum := by
              intro j
              rw [Multiset.map_add, Multiset.sum_add, Multiset.map_coe, Multiset.sum_coe, List.map_append, List.sum_append, fanIn_made, add_zero,
                fanOut_made ih.fields.same]
            have hf := fanOut_fields (vfree := vfree) (i := i) ih.fields hv
            refine ⟨?_, fun h => ?_, fun j => ?_, fun h j => ?_, fun j => ?_, fun j => ?_, fun j => ?_⟩
            · rw [hvis]
              simp only [eo]
              exact ⟨hf.1, hf.2, hf.3, hf.4, hf.5⟩
            · rw [hvis]
              have hl := fanOut_ledger (vfree := vfree) (i := i) ih.fields (ih.ledger (hok h)) hv
              rw [Multiset.add_cons] at hl
              have := fanIn_ledger (null := null) hf hl (.inl rfl)
              rw [← Multiset.coe_add]
              convert this using 1
              abel
            · rw [hsum, hsplits]; simp only [hcount]
              have := hle j
              omega
            · rw [hsum, hsplits]; simp only [hcount]
              have := heq (hok h) j
              omega
            · simp only [hcount]; exact ih.count_ge j
            · simp only [hcount]; exact ih.under j
            · simp only [hcount]; exact ih.over j

end Cru.Split
