import Verif.Props.Mutate

/-! # C85: mutation keeps both ends of every edge in agreement -/

namespace Cru.Mutate

open Net

variable {n : Nat} {N V L : Type} [DecidableEq N] [DecidableEq L]
variable {k : Kernel V L} {p : Plan} {g : Gr N V L} {b : N} {hash : N → Nat} {hn : 0 < n} {k₃ : Nat} {s : Job n N V L}

/-- The labels of the edges to a node. -/
abbrev labels (t : N) (es : List (L × N)) : List L := (es.filter (·.2 = t)).map Prod.fst

omit [DecidableEq L] in
theorem labels_patch (t : N) : ∀ (es : List (L × N)) (f : N → Option (List L)),
    labels t (patch f es) = match f t with
      | none => labels t es
      | some ls => ls.take (labels t es).length ++ (labels t es).drop ls.length := by
  intro es
  induction es with
  | nil => intro f; cases f t <;> simp [labels, patch]
  | cons e es ih =>
    intro f
    rw [patch]
    by_cases c : e.2 = t
    · subst c
      rcases hf : f e.2 with _ | ls
      · simp only [labels, List.filter_cons, decide_true, if_true, List.map_cons]
        have := ih f
        rw [hf] at this
        simp only [labels] at this
        rw [this]
      · cases ls with
        | nil =>
          have := ih f
          rw [hf] at this
          simp only [labels, List.filter_cons, decide_true, if_true, List.map_cons] at this ⊢
          rw [this]; simp
        | cons l ls =>
          have := ih (Function.update f e.2 (some ls))
          rw [Function.update_self] at this
          simp only [labels, List.filter_cons, decide_true, if_true, List.map_cons] at this ⊢
          rw [this]; simp
    · have hne : ∀ (x : L) (l : List (L × N)), labels t ((x, e.2) :: l) = labels t l := by
        intro x l; simp [labels, List.filter_cons, c]
      have he : ∀ l : List (L × N), labels t (e :: l) = labels t l := fun l => hne e.1 l
      rcases hf : f e.2 with _ | ls
      · dsimp only; rw [he, he]; exact ih f
      · cases ls with
        | nil => dsimp only; rw [he, he]; exact ih f
        | cons l ls =>
          dsimp only
          rw [hne, he, ih, Function.update_of_ne (fun h => c h.symm)]

theorem count_labels (l : L) (t : N) (es : List (L × N)) : es.count (l, t) = (labels t es).count l := by
  induction es with
  | nil => rfl
  | cons e es ih =>
    obtain ⟨x, u⟩ := e
    by_cases c : u = t
    · subst c
      simp only [labels, List.filter_cons, decide_true, if_true, List.map_cons, List.count_cons] at ih ⊢
      rw [ih]; simp
    · simp only [labels, List.filter_cons, c, decide_false, Bool.false_eq_true, if_false, List.count_cons] at ih ⊢
      rw [ih]; simp [c]

omit [DecidableEq L] in
theorem length_labels (t : N) (es : List (L × N)) : (labels t es).length = (es.map Prod.snd).count t := by
  induction es with
  | nil => rfl
  | cons e es ih =>
    by_cases c : e.2 = t
    · simp only [labels, List.filter_cons, c, decide_true, if_true, List.map_cons, List.length_cons, List.count_cons, beq_self_eq_true] at ih ⊢
      rw [ih]
    · have : (e.2 == t) = false := by simpa using c
      simp only [labels, List.filter_cons, c, decide_false, Bool.false_eq_true, if_false, List.map_cons, List.count_cons, this] at ih ⊢
      rw [ih]; rfl

/-- Either way, an edge is found at both ends. -/
theorem duplex_iff {g : Gr N V L} (p : Plan) :
    g.Duplex ↔ ∀ a ∈ g.nodes, ∀ b ∈ g.nodes, ∀ l, (after p g a).count (l, b) = (before p g b).count (l, a) := by
  unfold after before Gr.Duplex
  by_cases c : p.backwards = p.remoteFirst
  · simp only [if_pos c]
  · simp only [if_neg c]
    exact ⟨fun h a ha b hb l => (h b hb a ha l).symm, fun h a ha b hb l => (h b hb a ha l).symm⟩

/-- **C85.** The graph returned by `cru_mutated` is well formed and every edge is found with the same label among the outgoing edges of
one node and the incoming edges of the other, if that was true of the given graph, whatever the kernel and the plan. -/
theorem C85_full (hg : Full g) {h : Gr N V L} (hr : Mutates g p b k hash hn 0 0 k₃ s (.ok h)) : Full h := by
  obtain ⟨h1, h2, h3, h4, h5, -, -⟩ := C85_shape hg hr
  have h6 : k.eop = none → ∀ m ∈ g.nodes, m ∈ s.log → after p h m = after p g m := by
    obtain ⟨reach, ha, y, hy, hyd, hy0, z, hz, hzd, rfl, ho⟩ := hr
    obtain ⟨he, rfl⟩ := outcome_ok ho
    have := (ended_any hg.wf (hg.mutual p) ha hy hyd hy0 hz hzd he).1.mutated.mutated
    exact fun hk m hm hl => this m hm hl hk
  have hnext : ∀ m, h.next false m = g.next false m := fun m => by simp only [Gr.next, Bool.false_eq_true, if_false]; exact (h3 m).1
  refine ⟨⟨by rw [h1]; exact hg.wf.nodup, fun m => ?_⟩, (duplex_iff p).2 fun a ha c hc l => ?_, fun m hm e he => ?_⟩
  · rw [h1, h2, hg.wf.reach, show h.next false = g.next false from funext hnext]
  · rw [h1] at ha hc
    have hd := (duplex_iff p).1 hg.duplex
    have hperm : (labels c (after p g a)).Perm (labels a (before p g c)) :=
      List.perm_iff_count.2 fun l => by rw [← count_labels, ← count_labels]; exact hd a ha c hc l
    rw [count_labels, count_labels, h5 c hc, arriving]
    rcases hk : k.eop with _ | f
    · dsimp only
      by_cases hl : a ∈ s.log
      · rw [h6 hk a ha hl]; exact hperm.count_eq l
      · rw [(h4 a ha hl).2]; exact hperm.count_eq l
    · dsimp only
      rw [labels_patch]
      by_cases hl : a ∈ s.log
      · rw [if_pos hl]
        dsimp only
        have hlen : (labels c (after p h a)).length = (labels a (before p g c)).length := by
          rw [← hperm.length_eq, length_labels, length_labels]
          have : (after p h a).map Prod.snd = (after p g a).map Prod.snd := by
            unfold after; split_ifs
            · exact (h3 a).1
            · exact (h3 a).2
          rw [this]
        rw [← hlen, List.take_length, hlen, List.drop_length, List.append_nil]
      · rw [if_neg hl]
        dsimp only
        rw [(h4 a ha hl).2]; exact hperm.count_eq l
  · rw [h1] at hm ⊢
    have : e.2 ∈ (g.inn m).map Prod.snd := by rw [← (h3 m).2]; exact List.mem_map_of_mem he
    obtain ⟨e', he', heq⟩ := List.mem_map.1 this
    rw [← heq]; exact hg.inn m hm e' he'

example (lf bw : Bool) (hn : 0 < n) : ∃ s h, Mutates kite ⟨bw, lf, !lf⟩ 0 adder id hn 0 0 0 s (.ok h) ∧ Full kite ∧ Full h := by
  obtain ⟨s, h, hr⟩ := C20_exists (b := 0) kite_full (by decide) adder_ok ⟨bw, lf, !lf⟩ id hn
  exact ⟨s, h, hr, kite_full, C85_full kite_full hr⟩

end Cru.Mutate
