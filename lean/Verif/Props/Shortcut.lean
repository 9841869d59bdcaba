import Verif.Props.Compose
import Verif.Spec.Words

/-! # C173: the words of composed graphs -/

namespace Cru.Compose

open Net

variable {n : Nat} {N V L P : Type} [DecidableEq N] [DecidableEq L] {g R : Gr N V L} {c : Composer P L} {mapped : Gr N V L → N → P × P} {eq : L → L → Bool}
  {addr : N → Nat} {hn : 0 < n} {ch : Bool}

omit [DecidableEq N] [DecidableEq L] in
private theorem terminus_mem (hw : g.WF) {m : N} (hm : m ∈ g.nodes) {l : L} {t : N} (h : (l, t) ∈ g.out m) : t ∈ g.nodes :=
  (hw.reach _).2 (((hw.reach _).1 hm).tail (List.mem_map.2 ⟨_, h, rfl⟩))

private theorem alike_trans {L : Type} {eq : L → L → Bool} (he : IsEquality eq) {w w' w'' : List L} (h : Cru.Alike eq w w') (h' : Cru.Alike eq w' w'') :
    Cru.Alike eq w w'' := by
  induction h generalizing w'' with
  | nil => exact h'
  | cons h1 _ ih =>
    cases h' with
    | cons h2 h3 => exact .cons (he.trans _ _ _ h1 h2) (ih h3)

omit [DecidableEq N] [DecidableEq L] in
private theorem kept_pass {new : N → List (L × N)} (hw : g.WF) (hx : Extends eq new g R) (he : IsEquality eq) {w : List L} {m k : N}
    (h : Spells g.out k w m) (hk : k ∈ g.nodes) : ∃ w', Cru.Alike eq w w' ∧ Spells R.out k w' m := by
  induction h with
  | nil => exact ⟨[], .nil, .nil _⟩
  | @cons k x _ l w h1 _ ih =>
    obtain ⟨w', h2, h3⟩ := ih (terminus_mem hw hk h1)
    obtain ⟨d, ht⟩ := hx.out k hk
    obtain ⟨⟨l', x'⟩, h4, h5, h6⟩ := ht.covers _ (List.mem_append_left _ h1)
    cases h5
    exact ⟨l' :: w', .cons (he.symm _ _ h6) h2, .cons h4 h3⟩

omit [DecidableEq N] [DecidableEq L] in
private theorem sound_pass {p : N → P × P} (hw : g.WF) (hx : ∀ m ∈ g.nodes, ∀ e ∈ R.out m, e ∈ g.out m ++ called c p g.out m) {w : List L} {m k : N} (h : Spells R.out k w m)
    (hk : k ∈ g.nodes) : ∃ w', Spells g.out k w' m ∧ w.length ≤ w'.length ∧ w'.length ≤ 2 * w.length := by
  induction h with
  | nil => exact ⟨[], .nil _, le_refl _, by simp⟩
  | @cons k x _ l w h1 _ ih =>
    have h2 := hx k hk _ h1
    rcases List.mem_append.1 h2 with h2 | h2
    · obtain ⟨w', h3, h4, h5⟩ := ih (terminus_mem hw hk h2)
      exact ⟨l :: w', .cons h2 h3, by simpa using h4, by simp only [List.length_cons]; omega⟩
    · obtain ⟨⟨l₁, y⟩, h3, h4⟩ := List.mem_flatMap.1 h2
      obtain ⟨⟨l₂, z⟩, h5, h6⟩ := List.mem_map.1 h4
      have h5 := (List.mem_filter.1 h5).1
      injection h6 with _ h6
      dsimp only at h5 h6
      subst h6
      have hy := terminus_mem hw hk h3
      obtain ⟨w', h7, h8, h9⟩ := ih (terminus_mem hw hy h5)
      exact ⟨l₁ :: l₂ :: w', .cons h3 (.cons h5 h7), by simp only [List.length_cons]; omega, by simp only [List.length_cons]; omega⟩

/-- Edges after a pass are given or called for, whether or not it's destructive. -/
private theorem pass_from (hw : g.WF) (he : IsEquality eq) (ha : Function.Injective addr) (h : Pass c mapped eq addr hn (fun _ => none) g R ch) :
    ∀ m ∈ g.nodes, ∀ e ∈ R.out m, e ∈ g.out m ++ called c (mapped g) g.out m := by
  intro m hm e hin
  rw [pass_out hw h hm] at hin
  obtain ⟨d, hd⟩ := dedup_transversal he ha (called c (mapped g) g.out m)
  obtain ⟨d', hd'⟩ := dedup_transversal he ha (g.out m ++ dedup eq addr (called c (mapped g) g.out m))
  exact (transversal_join he hd hd').perm.mem_iff.1 (List.mem_append_left _ (List.mem_of_mem_filter hin))

/-- **C173.** Non-destructive composition, iterated or not, keeps the words of the given graph up to equality of labels, and they end at the same vertices. -/
theorem C173_kept (hw : g.WF) (he : IsEquality eq) (ha : Function.Injective addr) (hc : c.destructive = false) (h : Composes c mapped eq addr hn g R)
    {w : List L} {m : N} (hm : Cru.Ends g w m) : ∃ w', Cru.Alike eq w w' ∧ Cru.Ends R w' m := by
  induction h generalizing w with
  | @last g R ch hp _ =>
    have hx := C34_extends hw he ha hc hp
    unfold Cru.Ends
    rw [hx.base]
    exact kept_pass hw hx he hm ((hw.reach _).2 .refl)
  | @more g g' R hp _ _ ih =>
    have hx := C34_extends hw he ha hc hp
    obtain ⟨w', h1, h2⟩ := kept_pass hw hx he hm ((hw.reach _).2 .refl)
    obtain ⟨w'', h3, h4⟩ := ih hx.wf (w := w') (by unfold Cru.Ends; rw [hx.base]; exact h2)
    exact ⟨w'', alike_trans he h1 h3, h4⟩

/-- **C173.** Composition, destructive or not, makes no paths between vertices that had none: for each path from the base there was one in the given graph to
the same vertex that was at least as long. -/
theorem C173_sound (hw : g.WF) (he : IsEquality eq) (ha : Function.Injective addr) (h : Composes c mapped eq addr hn g R)
    {w : List L} {m : N} (hm : Cru.Ends R w m) : ∃ w', Cru.Ends g w' m ∧ w.length ≤ w'.length := by
  induction h with
  | @last g R ch hp _ =>
    unfold Cru.Ends at hm
    rw [(pass_basic hw he ha hp).1] at hm
    obtain ⟨w', h1, h2, -⟩ := sound_pass hw (pass_from hw he ha hp) hm ((hw.reach _).2 .refl)
    exact ⟨w', h1, h2⟩
  | @more g g' R hp _ _ ih =>
    obtain ⟨hb, -, hw', -⟩ := pass_basic hw he ha hp
    obtain ⟨w', h1, h2⟩ := ih hw' hm
    unfold Cru.Ends at h1
    rw [hb] at h1
    obtain ⟨w'', h3, h4, -⟩ := sound_pass hw (pass_from hw he ha hp) h1 ((hw.reach _).2 .refl)
    exact ⟨w'', h3, h2.trans h4⟩

/-- **C173.** A single pass makes paths no shorter than half of what they were. -/
theorem C173_single (hw : g.WF) (he : IsEquality eq) (ha : Function.Injective addr) (hf : c.fix = false)
    (h : Composes c mapped eq addr hn g R) {w : List L} {m : N} (hm : Cru.Ends R w m) :
    ∃ w', Cru.Ends g w' m ∧ w.length ≤ w'.length ∧ w'.length ≤ 2 * w.length := by
  cases h with
  | last hp _ =>
    unfold Cru.Ends at hm
    rw [(pass_basic hw he ha hp).1] at hm
    exact sound_pass hw (pass_from hw he ha hp) hm ((hw.reach _).2 .refl)
  | more _ h _ => rw [hf] at h; cases h

/-- **C173.** If all pairs of edges are selected, a single pass makes for each path one of half as many edges, rounded up. -/
theorem C173_halved (hw : g.WF) (he : IsEquality eq) (ha : Function.Injective addr) (hc : c.destructive = false) (hf : c.fix = false)
    (hq : ∀ p l q k, c.qpred p l q k = true) (h : Composes c mapped eq addr hn g R) {w : List L} {m : N} (hm : Cru.Ends g w m) :
    ∃ w', Cru.Ends R w' m ∧ w'.length = (w.length + 1) / 2 := by
  cases h with
  | more _ h _ => rw [hf] at h; cases h
  | last hp _ =>
    have hx := C34_extends hw he ha hc hp
    have key : ∀ (d : Nat) (w : List L) (k : N), w.length ≤ d → k ∈ g.nodes → Spells g.out k w m → ∃ w', Spells R.out k w' m ∧ w'.length = (w.length + 1) / 2 := by
      intro d
      induction d with
      | zero =>
        intro w k hd hk h
        rw [List.length_eq_zero_iff.1 (Nat.le_zero.1 hd)] at h ⊢
        cases h
        exact ⟨[], .nil _, by simp⟩
      | succ d ih =>
        intro w k hd hk h
        obtain ⟨dr, ht⟩ := hx.out k hk
        cases h with
        | nil => exact ⟨[], .nil _, by simp⟩
        | @cons _ x _ l w h1 h2 =>
          cases h2 with
          | nil =>
            obtain ⟨⟨l', x'⟩, h4, h5, -⟩ := ht.covers _ (List.mem_append_left _ h1)
            cases h5
            exact ⟨_, .cons h4 (.nil _), by simp⟩
          | @cons _ y _ l₂ w h2 h3 =>
            have hy := terminus_mem hw (terminus_mem hw hk h1) h2
            obtain ⟨w', h6, h7⟩ := ih w y (by simp only [List.length_cons] at hd; omega) hy h3
            have hn : (c.qop (mapped g k).1 l (mapped g y).2 l₂, y) ∈ called c (mapped g) g.out k :=
              List.mem_flatMap.2 ⟨(l, x), h1, List.mem_map.2 ⟨(l₂, y), List.mem_filter.2 ⟨h2, hq _ _ _ _⟩, rfl⟩⟩
            obtain ⟨⟨l', x'⟩, h4, h5, -⟩ := ht.covers _ (List.mem_append_right _ hn)
            cases h5
            exact ⟨l' :: w', .cons h4 h6, by simp only [List.length_cons, h7]; omega⟩
    unfold Cru.Ends
    rw [hx.base]
    exact key w.length w _ (le_refl _) ((hw.reach _).2 .refl) hm

/-- Non-vacuity of C173: a path of three edges, which has a path of two edges and the former one after composition. -/
example : ∃ R, Composes (summing false false) (fun _ _ => ((), ())) equals id (show 0 < 3 by omega) (path 4) R ∧
    (∃ w, Cru.Ends R w 3 ∧ w.length = 2) ∧ ∃ w, Cru.Alike equals [0, 1, 2] w ∧ Cru.Ends R w 3 := by
  have hw := path_wf (k := 4) (by omega)
  obtain ⟨-, -, R, ch, h⟩ := C34_terminates (mapped := fun _ _ => ((), ())) hw equals_equality
    Function.injective_id (summing false false) (show 0 < 3 by omega) (fun _ => none)
  have hR := Composes.last h (by simp [summing])
  have hp : Cru.Ends (path 4) [0, 1, 2] 3 := .cons (b := 1) (by decide) (.cons (b := 2) (by decide) (.cons (b := 3) (by decide) (.nil _)))
  exact ⟨R, hR, C173_halved hw equals_equality Function.injective_id rfl rfl (fun _ _ _ _ => rfl) hR hp,
    C173_kept hw equals_equality Function.injective_id rfl hR hp⟩

end Cru.Compose
