import Verif.Spec.Codes
import Verif.Props.Orders

/-!
# Lemmas about the codes in decision tables
-/

namespace Cru.Infer

/-- The codes in a decision table are documented or −820. -/
def Documented (t : List (Bool × Int)) : Prop := ∀ x ∈ t, x.2 = -820 ∨ -556 ≤ x.2 ∧ x.2 ≤ -512

theorem documented_append {t u : List (Bool × Int)} (ht : Documented t) (hu : Documented u) : Documented (t ++ u) := by
  intro x hx
  rcases List.mem_append.mp hx with h | h
  · exact ht x h
  · exact hu x h

theorem documented_provided {b : Bool} {t : List (Bool × Int)} (ht : Documented t) : Documented (provided b t) := by
  intro x hx
  obtain ⟨y, hy, rfl⟩ := List.mem_map.mp hx
  exact ht y hy

theorem documented_verdict {t : List (Bool × Int)} {e : Int} (ht : Documented t) (h : verdict t = some e) :
    e = -820 ∨ -556 ≤ e ∧ e ≤ -512 := by
  induction t with
  | nil => cases h
  | cons x l ih =>
    obtain ⟨c, d⟩ := x
    simp only [verdict] at h
    split at h
    · cases h; exact ht _ (List.mem_cons_self ..)
    · exact ih (fun y hy => ht y (List.mem_cons_of_mem _ hy)) h

theorem documented_nil : Documented [] := by intro x hx; cases hx

theorem documented_cons {c : Bool} {e : Int} {t : List (Bool × Int)} (he : e = -820 ∨ -556 ≤ e ∧ e ≤ -512) (ht : Documented t) :
    Documented ((c, e) :: t) := by
  intro x hx
  rcases List.mem_cons.mp hx with rfl | h
  · exact he
  · exact ht x h

/-- Proves that a table made of literal lines is documented. -/
macro "documented" : tactic => `(tactic| repeat' first
  | exact documented_nil
  | apply documented_cons (by decide)
  | apply documented_append
  | apply documented_provided)

theorem documented_fold (f : Fold) : Documented (foldTable f) := by unfold foldTable; documented
theorem documented_map (f : Fold) : Documented (mapTable f) := by unfold mapTable; documented
theorem documented_order (o : Order) (x : Field) : Documented (orderTable o x) := by unfold orderTable; documented
theorem documented_strict (o : Order) : Documented (strictTable o) := by unfold strictTable; documented
theorem documented_sig (s : Sig) : Documented (sigTable s) := by unfold sigTable; documented

theorem documented_prop (p : Prp) : Documented (propTable p) :=
  documented_append (documented_append (documented_fold _) (documented_fold _)) (documented_fold _)

theorem documented_mapProp (p : Prp) : Documented (mapPropTable p) :=
  documented_append (documented_append (documented_map _) (documented_fold _)) (documented_fold _)

theorem documented_classifier (c : Classifier) : Documented (classifierTable c) :=
  documented_append (documented_append (documented_append (documented_fold _) (documented_fold _)) (documented_map _)) (documented_order _ _)

theorem documented_builder (b : Builder) (r : Bool) : Documented (builderTable b r) := by
  unfold builderTable
  exact documented_append (documented_append (documented_append (by documented) (documented_order _ _)) (documented_order _ _)) (by documented)

theorem documented_merger (c : Merger) (s : Sig) : Documented (mergerTable c s) := by
  unfold mergerTable
  refine documented_append (documented_append (documented_append (documented_append (by documented) (documented_prop _)) (documented_fold _))
    (documented_provided ?_)) (documented_provided (documented_classifier _))
  split <;> exact documented_strict _

theorem documented_filter (f : Filter) (s : Sig) : Documented (filterTable f s) := by
  unfold filterTable
  exact documented_append (documented_append (documented_append (documented_append (documented_fold _) (documented_fold _)) (by documented))
    (documented_provided (documented_append (documented_order _ _) (by documented)))) (documented_fold _)

theorem documented_mutator (m : Mutator) : Documented (mutatorTable m) := by
  unfold mutatorTable
  exact documented_append (documented_append (documented_append (by documented) (documented_mapProp _)) (documented_map _)) (by documented)

/-- A table in which −820 stands only in lines that require a bmap. -/
def Sparing (l : List Fold) (t : List (Bool × Int)) : Prop := ∀ x ∈ t, x.1 = true → x.2 = -820 → ∃ f ∈ l, f.bmap ≠ none

theorem sparing_verdict {l : List Fold} {t : List (Bool × Int)} (ht : Sparing l t) (h : verdict t = some (-820)) : ∃ f ∈ l, f.bmap ≠ none := by
  induction t with
  | nil => cases h
  | cons x u ih =>
    obtain ⟨c, d⟩ := x
    simp only [verdict] at h
    split at h
    · rename_i hc
      cases h
      exact ht _ (List.mem_cons_self ..) hc rfl
    · exact ih (fun y hy => ht y (List.mem_cons_of_mem _ hy)) h

theorem sparing_nil {l : List Fold} : Sparing l [] := by intro x hx; cases hx

theorem sparing_cons {l : List Fold} {c : Bool} {e : Int} {t : List (Bool × Int)} (he : e ≠ -820) (ht : Sparing l t) : Sparing l ((c, e) :: t) := by
  intro x hx
  rcases List.mem_cons.mp hx with rfl | h
  · exact fun _ h => absurd h he
  · exact ht x h

theorem sparing_append {l : List Fold} {t u : List (Bool × Int)} (ht : Sparing l t) (hu : Sparing l u) : Sparing l (t ++ u) := by
  intro x hx
  rcases List.mem_append.mp hx with h | h
  · exact ht x h
  · exact hu x h

theorem sparing_provided {l : List Fold} {b : Bool} {t : List (Bool × Int)} (ht : Sparing l t) : Sparing l (provided b t) := by
  intro x hx h1 h2
  obtain ⟨y, hy, rfl⟩ := List.mem_map.mp hx
  exact ht y hy (by simp only [Bool.and_eq_true] at h1; exact h1.2) h2

/-- Proves that a table made of literal lines spares −820. -/
macro "sparing" : tactic => `(tactic| repeat' first
  | exact sparing_nil
  | apply sparing_cons (by decide)
  | apply sparing_append
  | apply sparing_provided)

theorem sparing_fold {l : List Fold} {f : Fold} (hf : f ∈ l) : Sparing l (foldTable f) := by
  unfold foldTable
  intro x hx
  rcases List.mem_cons.mp hx with rfl | h
  · intro h1 _
    simp only [Bool.and_eq_true] at h1
    exact ⟨f, hf, by intro hn; rw [hn] at h1; exact absurd h1.2 (by decide)⟩
  · clear hx
    revert x
    show Sparing l _
    sparing

theorem sparing_map {l : List Fold} {f : Fold} (hf : f ∈ l) : Sparing l (mapTable f) := by
  unfold mapTable
  intro x hx
  rcases List.mem_cons.mp hx with rfl | h
  · intro h1 _
    simp only [Bool.and_eq_true] at h1
    exact ⟨f, hf, by intro hn; rw [hn] at h1; exact absurd h1.2 (by decide)⟩
  · clear hx
    revert x
    show Sparing l _
    sparing

theorem sparing_bmap {l : List Fold} {f : Fold} (hf : f ∈ l) {t : List (Bool × Int)} (ht : Sparing l t) :
    Sparing l ((f.bmap.isSome, -820) :: t) := by
  intro x hx
  rcases List.mem_cons.mp hx with rfl | h
  · exact fun h1 _ => ⟨f, hf, by intro hn; rw [hn] at h1; exact absurd h1 (by decide)⟩
  · exact ht x h

theorem sparing_order {l : List Fold} (o : Order) (x : Field) : Sparing l (orderTable o x) := by unfold orderTable; sparing
theorem sparing_strict {l : List Fold} (o : Order) : Sparing l (strictTable o) := by unfold strictTable; sparing
theorem sparing_sig {l : List Fold} (s : Sig) : Sparing l (sigTable s) := by unfold sigTable; sparing

theorem sparing_prop {l : List Fold} {p : Prp} (h : ∀ f ∈ p.folds, f ∈ l) : Sparing l (propTable p) :=
  sparing_append (sparing_append (sparing_fold (h _ (by simp [Prp.folds]))) (sparing_fold (h _ (by simp [Prp.folds]))))
    (sparing_fold (h _ (by simp [Prp.folds])))

theorem sparing_mapProp {l : List Fold} {p : Prp} (h : ∀ f ∈ p.folds, f ∈ l) : Sparing l (mapPropTable p) :=
  sparing_append (sparing_append (sparing_map (h _ (by simp [Prp.folds]))) (sparing_fold (h _ (by simp [Prp.folds]))))
    (sparing_fold (h _ (by simp [Prp.folds])))

theorem sparing_classifier {l : List Fold} {c : Classifier} (h : ∀ f ∈ c.prop.folds, f ∈ l) : Sparing l (classifierTable c) :=
  sparing_append (sparing_append (sparing_append (sparing_fold (h _ (by simp [Prp.folds]))) (sparing_fold (h _ (by simp [Prp.folds]))))
    (sparing_map (h _ (by simp [Prp.folds])))) (sparing_order _ _)

theorem documented_inducer (i : Inducer) : Documented (inducerTable i) := by unfold inducerTable; documented

theorem documented_composer (c : Composer) (s : Sig) : Documented (composerTable c s) :=
  documented_append (documented_append (documented_append (documented_strict _) (by documented)) (documented_mapProp _)) (documented_mapProp _)

theorem documented_stretcher (x : Stretcher) (s : Sig) : Documented (stretcherTable x s) :=
  documented_append (documented_append (documented_sig _) (documented_mapProp _)) (by documented)

theorem documented_splitter (x : Splitter) (s : Sig) : Documented (splitterTable x s) :=
  documented_append (documented_append (documented_sig _) (documented_mapProp _)) (by documented)

theorem documented_postponer (p : Postponer) (s : Sig) : Documented (postponerTable p s) :=
  documented_append (documented_order _ _) (by documented)

theorem documented_crosser (c : Crosser) : Documented (crosserTable c) := documented_append (by documented) (documented_order _ _)

end Cru.Infer
