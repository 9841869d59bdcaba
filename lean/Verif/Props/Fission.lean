import Verif.Props.Split
import Verif.Spec.Words

/-! # C174: the words of split graphs -/

namespace Cru.Split

variable {n : Nat} {N V L P : Type} [DecidableEq N] [DecidableEq L] {sp : Splitter V P L} {nil : P} {null : L} {vfree : Bool} {limit : Nat}
  {g : Gr N V L} {addr : Twin N → Nat} {hn : 0 < n} {R : Gr (Twin N) V L}

/-- The labeler returns the label of the given edge. -/
def Labeler.Copies (f : Labeler P L) : Prop := ∀ p l q, f.top p l q = l

/-- The edges that lead to vertices that aren't to be split. -/
def unsplit (sp : Splitter V P L) (g : Gr N V L) (m : N) : List (L × N) := (g.out m).filter fun e => !fissile sp g (property sp g) e.2

omit [DecidableEq N] [DecidableEq L] in
private theorem label_mem {f : Labeler P L} {p q : P} {l k : L} (h : k ∈ (f.label p l q).toList) : f.Copies → k = l := by
  intro hc
  unfold Labeler.label at h
  split at h
  · rw [hc] at h; simpa using h
  · simp at h

omit [DecidableEq L] in
private theorem copies_from {prop cp : N → P} {s t : Twin N} {l : L} (h : (l, t) ∈ copies sp g prop cp s) :
    ∃ k, (k, t.1) ∈ g.out s.1 ∧ (sp.outAna.Copies → sp.outCata.Copies → sp.inAna.Copies → sp.inCata.Copies → l = k) := by
  unfold copies copiesBy at h
  obtain ⟨⟨k, m⟩, h1, h2⟩ := List.mem_flatMap.1 h
  obtain ⟨⟨o, l'⟩, h3, h4⟩ := List.mem_flatMap.1 h2
  have h3 := (List.mem_filter.1 h3).1
  have ho : sp.outAna.Copies → sp.outCata.Copies → l' = k := fun c1 c2 => by
    unfold origins at h3
    split at h3
    · rcases List.mem_append.1 h3 with h3 | h3
      · obtain ⟨x, h5, h6⟩ := List.mem_map.1 h3
        cases h6
        exact label_mem h5 c1
      · obtain ⟨x, h5, h6⟩ := List.mem_map.1 h3
        cases h6
        exact label_mem h5 c2
    · rw [List.mem_singleton] at h3
      cases h3
      rfl
  unfold termini at h4
  split at h4
  · rcases List.mem_append.1 h4 with h4 | h4
    · obtain ⟨x, h5, h6⟩ := List.mem_map.1 h4
      cases h6
      exact ⟨k, h1, fun c1 c2 c3 _ => (label_mem h5 c3).trans (ho c1 c2)⟩
    · obtain ⟨x, h5, h6⟩ := List.mem_map.1 h4
      cases h6
      exact ⟨k, h1, fun c1 c2 _ c4 => (label_mem h5 c4).trans (ho c1 c2)⟩
  · rw [List.mem_singleton] at h4
    cases h4
    exact ⟨k, h1, fun c1 c2 _ _ => ho c1 c2⟩

private theorem split_ok (hw : g.WF) (h : Splits sp nil null vfree limit g addr hn 0 0 0 (.ok R)) : ∃ cp, IsSplit sp g (property sp g) cp R := by
  rcases C37_split hw h with ⟨R', cp, hr, h1, -⟩ | ⟨hr, -⟩
  · cases hr; exact ⟨cp, h1⟩
  · cases hr

/-- **C174.** Splitting makes no paths that weren't there: for each path from the base to a vertex, there's one with as many edges to the vertex that it
was made from, or is.  If the labelers return the labels of the given edges, it has the same labels. -/
theorem C174_sound (hw : g.WF) (h : Splits sp nil null vfree limit g addr hn 0 0 0 (.ok R)) {w : List L} {t : Twin N} (ht : Cru.Ends R w t) :
    (∃ w', w'.length = w.length ∧ Cru.Ends g w' t.1) ∧
    (sp.outAna.Copies → sp.outCata.Copies → sp.inAna.Copies → sp.inCata.Copies → Cru.Ends g w t.1) := by
  obtain ⟨cp, hs⟩ := split_ok hw h
  have hR := hs.wf
  have key : ∀ {s t : Twin N} {w : List L}, Spells R.out s w t → s ∈ R.nodes → (∃ w', w'.length = w.length ∧ Spells g.out s.1 w' t.1) ∧
      (sp.outAna.Copies → sp.outCata.Copies → sp.inAna.Copies → sp.inCata.Copies → Spells g.out s.1 w t.1) := fun h => by
    induction h with
    | nil => exact fun _ => ⟨⟨[], rfl, .nil _⟩, fun _ _ _ _ => .nil _⟩
    | @cons s x _ l w he _ ih =>
      intro hm
      obtain ⟨k, h1, h2⟩ := copies_from ((hs.out s hm).mem_iff.1 he)
      obtain ⟨⟨w', h3, h4⟩, h5⟩ := ih ((hR.reach _).2 (((hR.reach _).1 hm).tail (List.mem_map.2 ⟨_, he, rfl⟩)))
      refine ⟨⟨k :: w', by simp [h3], .cons h1 h4⟩, fun c1 c2 c3 c4 => ?_⟩
      have := h2 c1 c2 c3 c4
      subst this
      exact .cons h1 (h5 c1 c2 c3 c4)
  have := key ht ((hR.reach _).2 .refl)
  rw [hs.base] at this
  exact this

/-- **C174.** Paths by way of vertices that aren't split remain as they are. -/
theorem C174_kept (hw : g.WF) (h : Splits sp nil null vfree limit g addr hn 0 0 0 (.ok R)) (hb : fissile sp g (property sp g) g.base = false)
    {w : List L} {m : N} (hm : Spells (unsplit sp g) g.base w m) : Cru.Ends R w (m, false) := by
  obtain ⟨cp, hs⟩ := split_ok hw h
  have hR := hs.wf
  have key : ∀ {k m : N} {w : List L}, Spells (unsplit sp g) k w m → fissile sp g (property sp g) k = false → (k, false) ∈ R.nodes →
      Spells R.out (k, false) w (m, false) := fun h => by
    induction h with
    | nil => exact fun _ _ => .nil _
    | @cons k x _ l w he _ ih =>
      intro hk hm
      obtain ⟨h1, h2⟩ := List.mem_filter.1 he
      have h2 : fissile sp g (property sp g) x = false := by simpa using h2
      have h3 : (l, (x, false)) ∈ R.out (k, false) := by
        rw [(hs.out _ hm).mem_iff]
        unfold copies copiesBy
        refine List.mem_flatMap.2 ⟨(l, x), h1, List.mem_flatMap.2 ⟨((k, false), l), List.mem_filter.2 ⟨?_, by simp⟩, ?_⟩⟩
        · unfold origins
          rw [if_neg (by rw [hk]; simp)]
          exact List.mem_singleton.2 rfl
        · unfold termini
          rw [if_neg (by rw [h2]; simp)]
          exact List.mem_singleton.2 rfl
      exact .cons h3 (ih h2 ((hR.reach _).2 (((hR.reach _).1 hm).tail (List.mem_map.2 ⟨_, h3, rfl⟩))))
  unfold Cru.Ends
  rw [hs.base]
  exact key hm hb (by rw [← hs.base]; exact (hR.reach _).2 .refl)

/-- **C174.** If the labelers for vertices made by `ana` always hold and return the labels of the given edges, all words remain, and end at these vertices. -/
theorem C174_ana (hw : g.WF) (h : Splits sp nil null vfree limit g addr hn 0 0 0 (.ok R)) (ho : ∀ p l q, sp.outAna.label p l q = some l)
    (hi : ∀ p l q, sp.inAna.label p l q = some l) {w : List L} {m : N} (hm : Cru.Ends g w m) : Cru.Ends R w (m, false) := by
  obtain ⟨cp, hs⟩ := split_ok hw h
  have hR := hs.wf
  have key : ∀ {k m : N} {w : List L}, Spells g.out k w m → (k, false) ∈ R.nodes → Spells R.out (k, false) w (m, false) := fun h => by
    induction h with
    | nil => exact fun _ => .nil _
    | @cons k x _ l w he _ ih =>
      intro hm
      have h3 : (l, (x, false)) ∈ R.out (k, false) := by
        rw [(hs.out _ hm).mem_iff]
        unfold copies copiesBy
        refine List.mem_flatMap.2 ⟨(l, x), he, List.mem_flatMap.2 ⟨((k, false), l), List.mem_filter.2 ⟨?_, by simp⟩, ?_⟩⟩
        · unfold origins
          split
          · rw [ho]; simp
          · exact List.mem_singleton.2 rfl
        · unfold termini
          split
          · rw [hi]; simp
          · exact List.mem_singleton.2 rfl
      exact .cons h3 (ih ((hR.reach _).2 (((hR.reach _).1 hm).tail (List.mem_map.2 ⟨_, h3, rfl⟩))))
  unfold Cru.Ends
  rw [hs.base]
  exact key hm (by rw [← hs.base]; exact (hR.reach _).2 .refl)

/-- Non-vacuity of C174: the last vertex of a path is split, so the first edge stays as it is, and the whole path leads to the vertex made by `ana`. -/
example (hn : 0 < n) (addr : Twin Nat → Nat) : ∃ R, Splits { both with fissile := fun v _ => decide (v = 2) } 0 0 true 0 path addr hn 0 0 0 (.ok R) ∧
    Cru.Ends R [0] (1, false) ∧ Cru.Ends R [0, 1] (2, false) ∧ ∀ w t, Cru.Ends R w t → Cru.Ends path w t.1 := by
  obtain ⟨r, h⟩ := C37_exists path_wf { both with fissile := fun v _ => decide (v = 2) } 0 0 true 0 addr hn
  rcases C37_split path_wf h with ⟨R, cp, rfl, -, -⟩ | ⟨-, h0⟩
  · exact ⟨R, h, C174_kept path_wf h rfl (.cons (b := 1) (by decide) (.nil _)),
      C174_ana path_wf h (fun _ _ _ => rfl) (fun _ _ _ => rfl) (.cons (b := 1) (by decide) (.cons (b := 2) (by decide) (.nil _))),
      fun w t ht => (C174_sound path_wf h ht).2 (fun _ _ _ => rfl) (fun _ _ _ => rfl) (fun _ _ _ => rfl) (fun _ _ _ => rfl)⟩
  · exact absurd rfl h0

end Cru.Split
