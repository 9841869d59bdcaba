import Verif.Proofs.Compose
import Verif.Proofs.Demo

/-!
# C34, C35, C66–C68: composing edges
-/

namespace Cru.Compose

open Net

variable {n : Nat} {N V L P : Type} [DecidableEq N] [DecidableEq L]

section

variable {g R : Gr N V L} {c : Composer P L} {mapped : Gr N V L → N → P × P} {eq : L → L → Bool} {addr : N → Nat} {hn : 0 < n} {ch : Bool}

/-- What is known about a pass in any case. -/
theorem pass_basic (hw : g.WF) (he : IsEquality eq) (ha : Function.Injective addr) {since : Fin n → Option Nat}
    (h : Pass c mapped eq addr hn since g R ch) :
    R.base = g.base ∧ R.vertex = g.vertex ∧ R.WF ∧ ∀ m ∈ R.nodes, m ∈ g.nodes := by
  obtain ⟨x, hx, hd, -, z, hz, hzd, hzk, rfl⟩ := h
  obtain ⟨hp, hs⟩ := guard_done hw hx hd
  have hr := fun m => bypassing_reach (m := m) (c := c) (since := since) hw he ha hp hs
  have hwf : (Merge.collected (bypassing g c eq addr x.g since) z.g).WF := pruned_wf (g := bypassing g c eq addr x.g since) hw.nodup hr hz hzd hzk
  exact ⟨rfl, rfl, hwf, fun m hm => hr m ((hwf.reach m).1 hm)⟩

/-- What the edges are if nothing is killed. -/
theorem pass_out (hw : g.WF) (h : Pass c mapped eq addr hn (fun _ => none) g R ch) {m : N} (hm : m ∈ g.nodes) :
    R.out m = (dedup eq addr (g.out m ++ dedup eq addr (called c (mapped g) g.out m))).filter
      fun e => decide (e.1 ∉ marks c (mapped g) g.out m) := by
  obtain ⟨x, hx, hd, -, z, hz, hzd, hzk, rfl⟩ := h
  obtain ⟨hp, hs⟩ := guard_done hw hx hd
  exact bypassing_composed hw hp hs hm (mem_composed_none.2 (hp.mem_iff.2 hm))

theorem pass_changed (hw : g.WF) (h : Pass c mapped eq addr hn (fun _ => none) g R ch) :
    ch = true ↔ ∃ m ∈ g.nodes, (g.out m).length ≠ (dedup eq addr (g.out m ++ dedup eq addr (called c (mapped g) g.out m))).length := by
  obtain ⟨x, hx, hd, hch, -⟩ := h
  obtain ⟨hp, hs⟩ := guard_done hw hx hd
  subst hch
  simp only [changed, List.any_eq_true]
  constructor
  · rintro ⟨m, hm, h⟩
    have hm' := hp.mem_iff.1 (mem_survivors.1 hm)
    refine ⟨m, hm', ?_⟩
    have hc := composeAll_eq (c := c) (out := g.out) (hs m hm') fun e he e' he' => hs _ (next_mem hw (next_mem hw hm' he) he')
    simpa [nodeEdges, mem_composed_none.2 (hp.mem_iff.2 hm'), hc, bypassed, hs m hm'] using h
  · rintro ⟨m, hm, h⟩
    refine ⟨m, mem_survivors.2 (hp.mem_iff.2 hm), ?_⟩
    have hc := composeAll_eq (c := c) (out := g.out) (hs m hm) fun e he e' he' => hs _ (next_mem hw (next_mem hw hm he) he')
    simpa [nodeEdges, mem_composed_none.2 (hp.mem_iff.2 hm), hc, bypassed, hs m hm] using h

theorem marks_none (hc : c.destructive = false) (p : N → P × P) (out : N → List (L × N)) (m : N) : marks c p out m = [] := by
  simp [marks, hc]

theorem reach_grows (hw : g.WF) (hb : R.base = g.base) (hout : ∀ m ∈ g.nodes, ∀ e ∈ g.out m, ∃ e' ∈ R.out m, e'.2 = e.2) {m : N}
    (h : Reaches (g.next false) g.base m) : Reaches (R.next false) R.base m := by
  rw [hb]
  induction h with
  | refl => exact .refl
  | tail h1 h2 ih =>
    refine ih.tail ?_
    simp only [Gr.next, Bool.false_eq_true, if_false, List.mem_map] at h2 ⊢
    obtain ⟨e, h3, h4⟩ := h2
    obtain ⟨e', h5, h6⟩ := hout _ ((hw.reach _).2 h1) e h3
    exact ⟨e', h5, h6.trans h4⟩

/-- **C34.** If it isn't killed, a non-destructive pass of `cru_composed` makes a graph with the same vertices, whatever the schedule,
with an edge for each one called for, and with the existing ones, without duplicates. -/
theorem C34_extends (hw : g.WF) (he : IsEquality eq) (ha : Function.Injective addr) (hc : c.destructive = false)
    (h : Pass c mapped eq addr hn (fun _ => none) g R ch) : Extends eq (called c (mapped g) g.out) g R := by
  obtain ⟨h1, h2, h3, h4⟩ := pass_basic hw he ha h
  have hout : ∀ m ∈ g.nodes, ∃ dropped, IsTransversal (Same eq) (g.out m ++ called c (mapped g) g.out m) (R.out m) dropped := by
    intro m hm
    rw [pass_out hw h hm, marks_none hc]
    obtain ⟨d, hd⟩ := dedup_transversal he ha (called c (mapped g) g.out m)
    obtain ⟨d', hd'⟩ := dedup_transversal he ha (g.out m ++ dedup eq addr (called c (mapped g) g.out m))
    refine ⟨d' ++ d, ?_⟩
    simpa using transversal_join he hd hd'
  refine ⟨h1, h2, ?_, h3, hout⟩
  refine (List.perm_ext_iff_of_nodup h3.nodup hw.nodup).2 fun m => ⟨h4 m, fun hm => (h3.reach m).2 ?_⟩
  refine reach_grows hw h1 ?_ ((hw.reach m).1 hm)
  intro a ha' e hea
  obtain ⟨d, hd⟩ := hout a ha'
  obtain ⟨o, ho, hoe⟩ := hd.covers e (List.mem_append_left _ hea)
  exact ⟨o, ho, hoe.1⟩

/-- **C34.** No phase of a pass goes on forever, and if nothing is killed, it yields a graph. -/
theorem C34_terminates (hw : g.WF) (he : IsEquality eq) (ha : Function.Injective addr) (c : Composer P L) (hn : 0 < n)
    (since : Fin n → Option Nat) :
    Merge.Ends (guarding g (mapped g) addr hn) g.base (Trav.start fun _ => none) ∧
    (∀ x, Net.Reach (guarding g (mapped g) addr hn) g.base (Trav.start fun _ => none) x → x.main = .done →
      Merge.Ends (pruning (bypassing g c eq addr x.g since) addr hn) g.base (Trav.start ())) ∧
    ∃ R ch, Pass c mapped eq addr hn since g R ch := by
  have h1 := Trav.quiet_ends (fun (_ : Fin n) s m => (guardIt (mapped g) s m, 0)) addr hn (next := g.next false) (a := g.base)
    (fun _ => none) (fun m h => (hw.reach m).2 h)
  have h2 : ∀ x, Net.Reach (guarding g (mapped g) addr hn) g.base (Trav.start fun _ => none) x → x.main = .done →
      _ := fun x hx hd => Trav.ends (fun (_ : Fin n) _ _ => ((), 0)) addr hn (next := (bypassing g c eq addr x.g since).next false) (a := g.base)
        () (fun m h => bypassing_reach hw he ha (guard_done hw hx hd).1 (guard_done hw hx hd).2 h)
  refine ⟨h1.1, fun x hx hd => (h2 x hx hd).1, ?_⟩
  obtain ⟨x, hx, hd⟩ := h1.2
  obtain ⟨z, hz, hzd, hzk⟩ := (h2 x hx hd).2
  exact ⟨_, _, x, hx, hd, rfl, z, hz, hzd, hzk, rfl⟩

/-! ## Destructive composition -/

/-- **C35.** A destructive pass leaves no edge of a vertex with the same label as one that is composed, be it another one, or new. -/
theorem C35_by_label (hw : g.WF) (he : IsEquality eq) (ha : Function.Injective addr) (hc : c.destructive = true)
    (h : Pass c mapped eq addr hn (fun _ => none) g R ch) {m : N} (hm : m ∈ R.nodes) {e e' : L × N} (hin : e ∈ R.out m)
    (hin' : e' ∈ g.out m) (hcomp : isComposed c (mapped g) g.out m e' = true) : e.1 ≠ e'.1 := by
  rw [pass_out hw h ((pass_basic hw he ha h).2.2.2 m hm)] at hin
  intro heq
  exact (of_decide_eq_true (List.mem_filter.1 hin).2) (mem_marks.2 ⟨hc, e', hin', hcomp, heq.symm⟩)

/-- **C35.** With the default labeler for scalar labels, by which a new edge is labelled like the first one composed, a destructive
pass creates no edges. -/
theorem C35_default_labeler (hw : g.WF) (he : IsEquality eq) (ha : Function.Injective addr) (hc : c.destructive = true)
    (hop : ∀ p l q l', c.qop p l q l' = l) (h : Pass c mapped eq addr hn (fun _ => none) g R ch) {m : N} (hm : m ∈ R.nodes)
    {e : L × N} (hin : e ∈ R.out m) : e ∈ g.out m := by
  have hmg := (pass_basic hw he ha h).2.2.2 m hm
  have hin2 := hin
  rw [pass_out hw h hmg] at hin2
  obtain ⟨d, hd⟩ := dedup_transversal he ha (called c (mapped g) g.out m)
  obtain ⟨d', hd'⟩ := dedup_transversal he ha (g.out m ++ dedup eq addr (called c (mapped g) g.out m))
  have := (transversal_join he hd hd').perm.mem_iff.1 (List.mem_append_left _ (List.mem_of_mem_filter hin2))
  rcases List.mem_append.1 this with h' | h'
  · exact h'
  · exfalso
    obtain ⟨e₁, h1, e₂, h2, h3, rfl⟩ := mem_called.1 h'
    exact C35_by_label hw he ha hc h hm hin h1 (List.any_eq_true.2 ⟨e₂, h2, h3⟩) (hop _ _ _ _)

/-- **C35.** If the edges of each vertex have labels of their own and the new labels are different from those, a destructive pass
replaces the edges that are composed with the ones called for. -/
theorem C35_distinct (hw : g.WF) (he : IsEquality eq) (ha : Function.Injective addr) (hc : c.destructive = true)
    (hdedup : ∀ m ∈ g.nodes, (g.out m).Pairwise fun a b => ¬ Same eq a b) (hdist : ∀ m ∈ g.nodes, ((g.out m).map Prod.fst).Nodup)
    (hfresh : ∀ m ∈ g.nodes, ∀ f ∈ called c (mapped g) g.out m, f.1 ∉ (g.out m).map Prod.fst)
    (h : Pass c mapped eq addr hn (fun _ => none) g R ch) :
    Replaces eq (called c (mapped g) g.out) (isComposed c (mapped g) g.out) g R := by
  obtain ⟨h1, h2, h3, h4⟩ := pass_basic hw he ha h
  refine ⟨h1, h2, h4, h3, fun m hmR => ?_⟩
  have hm := h4 m hmR
  rw [pass_out hw h hm]
  generalize hp : mapped g = p at *
  obtain ⟨d, hd⟩ := dedup_transversal he ha (called c p g.out m)
  obtain ⟨d', hd'⟩ := dedup_transversal he ha (g.out m ++ dedup eq addr (called c p g.out m))
  have hby : ∀ f ∈ dedup eq addr (called c p g.out m), f.1 ∉ marks c p g.out m := by
    intro f hf hmk
    obtain ⟨-, e, he1, -, he2⟩ := mem_marks.1 hmk
    exact hfresh m hm f (hd.perm.mem_iff.1 (List.mem_append_left _ hf)) (List.mem_map.2 ⟨e, he1, he2⟩)
  have hold : ∀ e ∈ g.out m, (e.1 ∈ marks c p g.out m ↔ isComposed c p g.out m e = true) := by
    intro e hem
    rw [mem_marks]
    constructor
    · rintro ⟨-, e', h5, h6, h7⟩
      have : e' = e := List.inj_on_of_nodup_map (hdist m hm) h5 hem h7
      rw [← this]; exact h6
    · intro h5; exact ⟨hc, e, hem, h5, rfl⟩
  have hfout : (g.out m).filter (fun e => decide (e.1 ∉ marks c p g.out m)) = (g.out m).filter fun e => !isComposed c p g.out m e := by
    refine List.filter_congr fun e hem => ?_
    have := hold e hem
    by_cases hi : isComposed c p g.out m e = true
    · simp [hi, this.2 hi]
    · have hx : e.1 ∉ marks c p g.out m := fun hx => hi (this.1 hx)
      simp [hi, hx]
  have hfby : (dedup eq addr (called c p g.out m)).filter (fun e => decide (e.1 ∉ marks c p g.out m)) = dedup eq addr (called c p g.out m) :=
    List.filter_eq_self.2 fun f hf => decide_eq_true (hby f hf)
  refine ⟨d'.filter (fun e => decide (e.1 ∉ marks c p g.out m)) ++ d, ?_, ?_, ?_⟩
  · have h5 := hd'.perm.filter (fun e => decide (e.1 ∉ marks c p g.out m))
    rw [List.filter_append, List.filter_append, hfout, hfby] at h5
    rw [← List.append_assoc]
    refine (h5.append_right d).trans ?_
    rw [List.append_assoc]
    exact hd.perm.append_left _
  · exact hd'.distinct.filter _
  · intro e hmem
    have hsel : ∀ o ∈ dedup eq addr (g.out m ++ dedup eq addr (called c p g.out m)), Same eq o e → o.1 ∉ marks c p g.out m →
        ∃ o ∈ (dedup eq addr (g.out m ++ dedup eq addr (called c p g.out m))).filter (fun e => decide (e.1 ∉ marks c p g.out m)), Same eq o e :=
      fun o h5 h6 h7 => ⟨o, List.mem_filter.2 ⟨h5, decide_eq_true h7⟩, h6⟩
    rcases List.mem_append.1 hmem with hmem | hmem
    · obtain ⟨hem, hnc⟩ := List.mem_filter.1 hmem
      obtain ⟨o, ho, hoe⟩ := hd'.covers e (List.mem_append_left _ hem)
      refine hsel o ho hoe ?_
      rcases List.mem_append.1 (hd'.perm.mem_iff.1 (List.mem_append_left _ ho)) with h5 | h5
      · have : o = e := by
          by_contra hne
          exact Merge.pairwise_ne (fun a b hab hba => hab (hba.symm' he)) (hdedup m hm) h5 hem hne hoe
        subst this
        intro hmk
        rw [(hold o hem).1 hmk] at hnc; simp at hnc
      · exact hby o h5
    · obtain ⟨b, hb, hbe⟩ := hd.covers e hmem
      obtain ⟨o, ho, hob⟩ := hd'.covers b (List.mem_append_right _ hb)
      exact hsel o ho (hob.trans' he hbe) (hby o (dedup_last he ho hb hob))

/-! ## A lost kill -/

/-- **C67.** A kill can be lost.  If at least `31 * n + 1` vertices are called to have an edge they don't have, on `n` lanes, there's an
execution of a pass of `cru_composed` in which the switch is used while edges are being composed, but which yields a graph without
an error that lacks an edge called for. -/
theorem C67_kill_lost (hw : g.WF) (he : IsEquality eq) (ha : Function.Injective addr) (hc : c.destructive = false) (hn : 0 < n)
    (ms : List N) (hms : ms.Nodup) (hsub : ∀ m ∈ ms, m ∈ g.nodes) (hlarge : 31 * n + 1 ≤ ms.length)
    (hnew : ∀ m ∈ ms, ∃ f ∈ called c (mapped g) g.out m, ∀ e ∈ g.out m, ¬ Same eq e f) :
    ∃ R ch, Pass c mapped eq addr hn (fun _ => some 0) g R ch ∧
      ∃ m ∈ R.nodes, ∃ f ∈ called c (mapped g) g.out m, ∀ e ∈ R.out m, ¬ Same eq e f := by
  obtain ⟨-, -, R, ch, h⟩ := C34_terminates (mapped := mapped) hw he ha c hn (fun _ => some 0)
  refine ⟨R, ch, h, ?_⟩
  obtain ⟨h1, h2, h3, h4⟩ := pass_basic hw he ha h
  obtain ⟨x, hx, hd, -, z, hz, hzd, hzk, hR⟩ := h
  obtain ⟨hp, hs⟩ := guard_done hw hx hd
  have hfew : (composedNodes x.g fun _ => some 0).length ≤ 31 * n := by
    unfold composedNodes
    rw [List.length_flatMap]
    refine le_trans (List.sum_le_card_nsmul _ 31 ?_) (by simp [Nat.mul_comm])
    intro k hk
    obtain ⟨i, -, rfl⟩ := List.mem_map.1 hk
    exact unkilled_few _ 0 (by omega)
  have : ∃ m ∈ ms, m ∉ composedNodes x.g fun _ => some 0 := by
    by_contra hcon
    push Not at hcon
    have := (hms.subperm hcon).length_le
    omega
  obtain ⟨m, hm, hmc⟩ := this
  have hmg := hsub m hm
  have hout : R.out m = dedup eq addr (g.out m) := by
    rw [hR]; exact bypassing_other hp hs hmg hmc
  have hmR : m ∈ R.nodes := by
    refine (h3.reach m).2 (reach_grows hw h1 ?_ ((hw.reach m).1 hmg))
    intro a ha' e hea
    rw [hR]
    show ∃ e' ∈ (bypassing g c eq addr x.g fun _ => some 0).out a, e'.2 = e.2
    by_cases hac : a ∈ composedNodes x.g fun _ => some 0
    · rw [bypassing_composed hw hp hs ha' hac, marks_none hc]
      obtain ⟨d', hd'⟩ := dedup_transversal he ha (g.out a ++ dedup eq addr (called c (mapped g) g.out a))
      obtain ⟨o, ho, hoe⟩ := hd'.covers e (List.mem_append_left _ hea)
      exact ⟨o, by simpa using ho, hoe.1⟩
    · rw [bypassing_other hp hs ha' hac]
      obtain ⟨d, hd⟩ := dedup_transversal he ha (g.out a)
      obtain ⟨o, ho, hoe⟩ := hd.covers e hea
      exact ⟨o, ho, hoe.1⟩
  obtain ⟨f, hf, hno⟩ := hnew m hm
  refine ⟨m, hmR, f, hf, fun e hem => ?_⟩
  rw [hout] at hem
  obtain ⟨d, hd⟩ := dedup_transversal he ha (g.out m)
  exact hno e (hd.perm.mem_iff.1 (List.mem_append_left _ hem))

omit [DecidableEq N] [DecidableEq L] in
/-- If no more edges are kept than there are in a list without duplicates, the others are equal to some in the list. -/
theorem full_transversal (he : IsEquality eq) {xs ys out d : List (L × N)} (h : IsTransversal (Same eq) (xs ++ ys) out d)
    (hx : xs.Pairwise fun a b => ¬ Same eq a b) (hl : out.length = xs.length) {y : L × N} (hy : y ∈ ys) : ∃ x ∈ xs, Same eq x y := by
  classical
  choose! f hf hfs using fun x (hx : x ∈ xs) => h.covers x (List.mem_append_left _ hx)
  have hnd : (xs.map f).Nodup := by
    rw [List.Nodup, List.pairwise_map]
    refine hx.imp_of_mem fun {a b} ha hb hab heq => hab ?_
    have h1 := hfs a ha
    rw [heq] at h1
    exact (h1.symm' he).trans' he (hfs b hb)
  have hsp : (xs.map f).Subperm out := hnd.subperm fun o ho => by
    obtain ⟨x, hx, rfl⟩ := List.mem_map.1 ho; exact hf x hx
  have hperm := hsp.perm_of_length_le (by simp [hl])
  obtain ⟨o, ho, hoy⟩ := h.covers y (List.mem_append_right _ hy)
  obtain ⟨x, hx, rfl⟩ := List.mem_map.1 (hperm.mem_iff.2 ho)
  exact ⟨x, hx, ((hfs x hx).symm' he).trans' he hoy⟩

/-- **C69.** An iterated composition can go on with freed nodes after a kill.  For any graph that has at least `31 * n + 1` vertices and
is changed by a non-destructive pass on `n` lanes, there's an execution in which the switch is used while the graph is pruned, and no
worker has an error.  `_cru_pruned` succeeds then, because it only tests for errors (filters.c:729), and there's another iteration
(compose.c:442-448).  There's a node that has been freed then, and every execution of the next iteration visits it. -/
theorem C69_freed_visited (hw : g.WF) (he : IsEquality eq) (ha : Function.Injective addr) (hc : c.destructive = false) (hn : 0 < n)
    (hlarge : 31 * n + 1 ≤ g.nodes.length) (hch : ∃ m ∈ g.nodes, ∃ f ∈ called c (mapped g) g.out m, ∀ e ∈ g.out m, ¬ Same eq e f)
    (hdedup : ∀ m ∈ g.nodes, (g.out m).Pairwise fun a b => ¬ Same eq a b) :
    ∃ x : State n N (Trav.Job n N (N → Option (P × P))), ∃ z : State n N (Trav.Job n N Unit),
      Net.Reach (guarding g (mapped g) addr hn) g.base (Trav.start fun _ => none) x ∧ x.main = .done ∧
      changed g c eq addr x.g (fun _ => none) = true ∧
      Net.Reach (pruning (bypassing g c eq addr x.g fun _ => none) addr hn) g.base (Trav.start ()) z ∧ z.main = .done ∧
      (∀ i, z.g.err i = 0) ∧ z.g.killed ≠ 0 ∧ ∃ m ∈ freed x.g z.g,
        ∀ x' : State n N (Trav.Job n N (N → Option (P × P))),
          Net.Reach (guarding (bypassing g c eq addr x.g fun _ => none) (mapped (bypassing g c eq addr x.g fun _ => none)) addr hn)
            g.base (Trav.start fun _ => none) x' → x'.main = .done → ∃ i, m ∈ x'.g.seen i := by
  obtain ⟨-, -, R, ch, hpass⟩ := C34_terminates (mapped := mapped) hw he ha c hn (fun _ => none)
  have hx := C34_extends hw he ha hc hpass
  have hpass' := hpass
  obtain ⟨x, hxr, hxd, hchx, z₀, -, -, -, hR⟩ := hpass
  obtain ⟨hp, hs⟩ := guard_done hw hxr hxd
  have hreach : ∀ m, Reaches ((bypassing g c eq addr x.g fun _ => none).next false) g.base m → m ∈ g.nodes :=
    fun m => bypassing_reach hw he ha hp hs
  have hreach' : ∀ m ∈ g.nodes, Reaches ((bypassing g c eq addr x.g fun _ => none).next false) g.base m := by
    intro m hm
    have := (hx.wf.reach m).1 (hx.nodes.mem_iff.2 hm)
    rw [hR] at this
    exact this
  obtain ⟨z, hz, hzd, hfew, hzk⟩ := Trav.killed_few (fun (_ : Fin n) _ _ => ((), 0)) addr hn
    (next := (bypassing g c eq addr x.g fun _ => none).next false) (a := g.base) () hreach (fun s => s.killed ≠ 0) Nat.one_ne_zero (by
      intro i s m h
      simp only [Trav.handle]
      obtain ⟨sample, stop, e, -⟩ := Trav.poll_eq s i
      rw [e]
      split_ifs <;> exact h)
  refine ⟨x, z, hxr, hxd, ?_, hz, hzd, pruning_err hz, hzk, ?_⟩
  · rw [← hchx]
    refine (pass_changed hw hpass').2 ?_
    obtain ⟨m, hm, f, hf, hno⟩ := hch
    refine ⟨m, hm, fun hlen => ?_⟩
    obtain ⟨d, hd⟩ := hx.out m hm
    obtain ⟨e, h1, h2⟩ := full_transversal he hd (hdedup m hm) (by
      rw [hlen, pass_out hw hpass' hm, marks_none hc]; simp) hf
    exact hno e h1 h2
  · have hstop : ∃ i, z.g.stop i = true := by
      by_contra hcon
      have hp' := (Trav.walker ((bypassing g c eq addr x.g fun _ => none).next false) (fun (_ : Fin n) _ _ => ((), 0)) addr hn).visited_perm
        hn (fun i => rfl) hz hzd (fun i => ⟨pruning_err hz i, by
          by_contra h; exact hcon ⟨i, by simpa using h⟩⟩) hw.nodup (fun m => ⟨hreach' m, hreach m⟩)
      have hlen := hp'.length_eq
      have hle : ((List.finRange n).flatMap z.g.seen).length ≤ 31 * n := by
        rw [List.length_flatMap]
        refine le_trans (List.sum_le_card_nsmul _ 31 ?_) (by simp [Nat.mul_comm])
        intro k hk
        obtain ⟨i, -, rfl⟩ := List.mem_map.1 hk
        exact hfew i
      have hlen' : ((List.finRange n).flatMap z.g.seen).length = g.nodes.length := hlen
      omega
    obtain ⟨i, hi⟩ := hstop
    obtain ⟨m, hmr, hml⟩ := Trav.stop_home _ (reach_bag hn hz) i hi
    have hm := hreach m hmr
    have hmi : m ∈ x.g.seen i := by
      obtain ⟨j, -, hj⟩ := List.mem_flatMap.1 (hp.mem_iff.2 hm)
      have := Trav.home _ (reach_bag hn (Trav.quiet_reach hxr).1) j m hj
      rw [← hml, this]; exact hj
    refine ⟨m, List.mem_flatMap.2 ⟨i, List.mem_finRange i, by rw [if_pos hi]; exact List.mem_reverse.2 hmi⟩, fun x' hx' hd' => ?_⟩
    have hwR : R.WF := hx.wf
    have hx'' : Net.Reach (guarding R (mapped (bypassing g c eq addr x.g fun _ => none)) addr hn) R.base (Trav.start fun _ => none) x' := by
      rw [hR]; exact hx'
    obtain ⟨hp2, -⟩ := guard_done hwR hx'' hd'
    obtain ⟨j, -, hj⟩ := List.mem_flatMap.1 (hp2.mem_iff.2 (hx.nodes.mem_iff.2 hm))
    exact ⟨j, hj⟩

end

/-! ## Iterated composition -/

section Fix

variable {g R : Gr N V L} {c : Composer P L} {p : V → P × P} {eq : L → L → Bool} {addr : N → Nat} {hn : 0 < n}

/-- **C68.** If the given graph has no duplicate edges and properties are those of vertices alone, and if the predicate and the labeler
don't distinguish equal labels, an iterated non-destructive composition that isn't killed yields a graph that has the same vertices
and the existing edges, and every edge called for by its own edges, and only edges that follow from the existing ones. -/
theorem C68_closed (hw : g.WF) (he : IsEquality eq) (ha : Function.Injective addr) (hc : c.destructive = false) (hfix : c.fix = true)
    (hpred : ∀ q l₁ l₁' r l₂ l₂', eq l₁ l₁' = true → eq l₂ l₂' = true → c.qpred q l₁ r l₂ = c.qpred q l₁' r l₂')
    (hop : ∀ q l₁ l₁' r l₂ l₂', eq l₁ l₁' = true → eq l₂ l₂' = true → eq (c.qop q l₁ r l₂) (c.qop q l₁' r l₂') = true)
    (hdedup : ∀ m ∈ g.nodes, (g.out m).Pairwise fun a b => ¬ Same eq a b)
    (h : Composes c (fun G m => p (G.vertex m)) eq addr hn g R) :
    R.base = g.base ∧ R.vertex = g.vertex ∧ R.nodes.Perm g.nodes ∧ R.WF ∧
    (∀ m ∈ R.nodes, (R.out m).Pairwise fun a b => ¬ Same eq a b) ∧
    (∀ m ∈ R.nodes, ∀ e ∈ g.out m, ∃ e' ∈ R.out m, Same eq e' e) ∧
    (∀ m ∈ R.nodes, ∀ f ∈ called c (fun m => p (R.vertex m)) R.out m, ∃ e ∈ R.out m, Same eq e f) ∧
    ∀ m ∈ R.nodes, ∀ e ∈ R.out m, Derives c (fun m => p (g.vertex m)) g m e := by
  induction h with
  | @last g R ch hpass hch =>
    have hch : ch = false := by rw [hfix] at hch; simpa using hch
    subst hch
    have hx := C34_extends hw he ha hc hpass
    have hlen : ∀ m ∈ g.nodes, (R.out m).length = (g.out m).length := by
      intro m hm
      by_contra hne
      have : (false : Bool) = true := (pass_changed hw hpass).2 ⟨m, hm, fun h' => hne (by
        rw [pass_out hw hpass hm, marks_none hc, h']; simp)⟩
      cases this
    have hback : ∀ m ∈ g.nodes, ∀ e ∈ R.out m, ∃ e₀ ∈ g.out m, Same eq e₀ e := by
      intro m hm e hem
      obtain ⟨d, hd⟩ := hx.out m hm
      rcases List.mem_append.1 (hd.perm.mem_iff.1 (List.mem_append_left _ hem)) with h1 | h1
      · exact ⟨e, h1, Same.refl' he e⟩
      · exact full_transversal he hd (hdedup m hm) (hlen m hm) h1
    refine ⟨hx.base, hx.vertex, hx.nodes, hx.wf, ?_, ?_, ?_, ?_⟩
    · intro m hm
      obtain ⟨d, hd⟩ := hx.out m (hx.nodes.mem_iff.1 hm)
      exact hd.distinct
    · intro m hm e hem
      obtain ⟨d, hd⟩ := hx.out m (hx.nodes.mem_iff.1 hm)
      exact hd.covers e (List.mem_append_left _ hem)
    · intro m hm f hf
      have hmg := hx.nodes.mem_iff.1 hm
      obtain ⟨d, hd⟩ := hx.out m hmg
      obtain ⟨e, h1, e', h2, h3, rfl⟩ := mem_called.1 hf
      have heg : e.2 ∈ g.nodes := hx.nodes.mem_iff.1 (next_mem hx.wf hm h1)
      obtain ⟨e₀, h4, h5⟩ := hback m hmg e h1
      obtain ⟨e₀', h6, h7⟩ := hback e.2 heg e' h2
      simp only [selects] at h3
      rw [hx.vertex] at h3 ⊢
      have hcall : (c.qop (p (g.vertex m)).1 e₀.1 (p (g.vertex e₀'.2)).2 e₀'.1, e₀'.2) ∈ called c (fun m => p (g.vertex m)) g.out m :=
        mem_called.2 ⟨e₀, h4, e₀', by rw [h5.1]; exact h6, by
          simp only [selects]; rw [h7.1, hpred _ _ _ _ _ _ h5.2 h7.2]; exact h3, rfl⟩
      obtain ⟨o, ho, hos⟩ := hd.covers _ (List.mem_append_right _ hcall)
      refine ⟨o, ho, hos.trans' he ⟨h7.1, ?_⟩⟩
      show eq (c.qop (p (g.vertex m)).1 e₀.1 (p (g.vertex e₀'.2)).2 e₀'.1) _ = true
      rw [h7.1]
      exact hop _ _ _ _ _ _ h5.2 h7.2
    · intro m hm e hem
      obtain ⟨d, hd⟩ := hx.out m (hx.nodes.mem_iff.1 hm)
      rcases List.mem_append.1 (hd.perm.mem_iff.1 (List.mem_append_left _ hem)) with h1 | h1
      · exact .old h1
      · obtain ⟨e₁, h2, e₂, h3, h4, rfl⟩ := mem_called.1 h1
        exact .new (.old h2) (.old h3) h4
  | @more g g' R hpass _ _ ih =>
    have hx := C34_extends hw he ha hc hpass
    obtain ⟨h1, h2, h3, h4, h5, h6, h7, h8⟩ := ih hx.wf (fun m hm => by
      obtain ⟨d, hd⟩ := hx.out m (hx.nodes.mem_iff.1 hm); exact hd.distinct)
    refine ⟨h1.trans hx.base, h2.trans hx.vertex, h3.trans hx.nodes, h4, h5, ?_, h7, ?_⟩
    · intro m hm e hem
      obtain ⟨d, hd⟩ := hx.out m (hx.nodes.mem_iff.1 (h3.mem_iff.1 hm))
      obtain ⟨o, ho, hoe⟩ := hd.covers e (List.mem_append_left _ hem)
      obtain ⟨o', ho', hoo⟩ := h6 m hm o ho
      exact ⟨o', ho', hoo.trans' he hoe⟩
    · intro m hm e hem
      have hlift : ∀ m e, m ∈ g.nodes → Derives c (fun m => p (g'.vertex m)) g' m e → Derives c (fun m => p (g.vertex m)) g m e ∧ e.2 ∈ g.nodes := by
        intro m e hm hder
        rw [hx.vertex] at hder
        induction hder with
        | @old m e hem =>
          obtain ⟨d, hd⟩ := hx.out m hm
          refine ⟨?_, hx.nodes.mem_iff.1 (next_mem hx.wf (hx.nodes.mem_iff.2 hm) hem)⟩
          rcases List.mem_append.1 (hd.perm.mem_iff.1 (List.mem_append_left _ hem)) with h1 | h1
          · exact .old h1
          · obtain ⟨e₁, h2, e₂, h3, h4, rfl⟩ := mem_called.1 h1
            exact .new (.old h2) (.old h3) h4
        | @new m e e' _ _ hsel ih1 ih2 =>
          obtain ⟨a1, a2⟩ := ih1 hm
          obtain ⟨b1, b2⟩ := ih2 a2
          exact ⟨.new a1 b1 hsel, b2⟩
      exact (hlift m e (hx.nodes.mem_iff.1 (h3.mem_iff.1 hm)) (h8 m hm e hem)).1

end Fix

/-! ## Demonstrations and counterexamples -/

/-- A path through all vertices, each edge being labelled with its origin. -/
def path (k : Nat) : Gr Nat Nat Nat where
  nodes := List.range k
  base := 0
  vertex := id
  out m := if m + 1 < k then [(m, m + 1)] else []
  inn _ := []

theorem path_wf {k : Nat} (hk : 0 < k) : (path k).WF := by
  refine wf_range rfl rfl hk (fun m hm e he => ?_) (fun m hm h0 => ⟨m - 1, by omega, (m - 1, m), ?_, rfl⟩)
  · simp only [path] at he
    split_ifs at he with h
    · rw [List.mem_singleton.1 he]; exact h
    · cases he
  · simp only [path]
    rw [if_pos (by omega)]
    have : m - 1 + 1 = m := by omega
    rw [this]; exact List.mem_singleton.2 rfl

/-- Compose everything, adding labels up. -/
def summing (destructive fix : Bool) : Composer Unit Nat := ⟨fun _ _ _ _ => true, fun _ l _ l' => l + l', destructive, fix⟩

def equals (a b : Nat) : Bool := decide (a = b)

theorem equals_equality : IsEquality equals := Merge.decide_equality

/-- Non-vacuity of C34: a pass on three lanes adds an edge labelled with 3 from the second to the fourth vertex of a path. -/
example : ∃ R ch, Pass (summing false false) (fun _ _ => ((), ())) equals id (show 0 < 3 by omega) (fun _ => none) (path 4) R ch ∧
    R.out 1 = [(1, 2), (3, 3)] := by
  obtain ⟨-, -, R, ch, h⟩ := C34_terminates (mapped := fun _ _ => ((), ())) (path_wf (k := 4) (by omega)) equals_equality
    Function.injective_id (summing false false) (show 0 < 3 by omega) (fun _ => none)
  exact ⟨R, ch, h, by rw [pass_out (path_wf (by omega)) h (by decide)]; decide⟩

/-- Non-vacuity of C35: the labels in a path are distinct, and the sums of consecutive ones are new except in one case. -/
example : (∀ m ∈ (path 4).nodes, ((path 4).out m).Pairwise fun a b => ¬ Same equals a b) ∧
    (∀ m ∈ (path 4).nodes, (((path 4).out m).map Prod.fst).Nodup) ∧
    ∀ m ∈ (path 4).nodes, ∀ f ∈ called (⟨fun _ _ _ _ => true, fun _ l _ l' => l + l' + 1, true, false⟩ : Composer Unit Nat)
      (fun _ => ((), ())) (path 4).out m, f.1 ∉ ((path 4).out m).map Prod.fst := by
  refine ⟨by simp only [Same]; decide, by decide, by decide⟩

/-- Two edges with the same label, of which only one can be composed. -/
def twins : Gr Nat Nat Nat where
  nodes := [0, 1, 2, 3]
  base := 0
  vertex := id
  out m := if m = 0 then [(7, 1), (7, 2)] else if m = 1 then [(8, 3)] else []
  inn _ := []

theorem twins_wf : twins.WF := wf_range (k := 4) rfl rfl (by omega) (by decide) (by decide)

/-- **C35.** An edge that isn't composed is deleted along with one that has the same label, and so is its terminus, by every pass. -/
theorem C35_unrelated_deleted {hn : 0 < n} {R : Gr Nat Nat Nat} {ch : Bool}
    (h : Pass (summing true false) (fun _ _ => ((), ())) equals id hn (fun _ => none) twins R ch) :
    (7, 2) ∈ twins.out 0 ∧ isComposed (summing true false) (fun _ => ((), ())) twins.out 0 (7, 2) = false ∧
    R.out 0 = [(15, 3)] ∧ 2 ∈ twins.nodes ∧ 2 ∉ R.nodes := by
  have h0 : R.out 0 = [(15, 3)] := by rw [pass_out twins_wf h (by decide)]; decide
  have h3 : R.out 3 = [] := by rw [pass_out twins_wf h (by decide)]; decide
  obtain ⟨hb, -, hwf, -⟩ := pass_basic twins_wf equals_equality Function.injective_id h
  refine ⟨by decide, by decide, h0, by decide, fun h2 => ?_⟩
  have hr := (hwf.reach 2).1 h2
  have : ∀ m, Reaches (R.next false) R.base m → m = 0 ∨ m = 3 := by
    intro m hm
    induction hm with
    | refl => exact .inl hb
    | tail _ hs ih =>
      simp only [Gr.next, Bool.false_eq_true, if_false, List.mem_map] at hs
      obtain ⟨e, he, rfl⟩ := hs
      rcases ih with rfl | rfl
      · rw [h0] at he; rw [List.mem_singleton.1 he]; exact .inr rfl
      · rw [h3] at he; cases he
  exact absurd (this 2 hr) (by decide)

/-- Non-vacuity: there is such a pass. -/
example : ∃ R ch, Pass (summing true false) (fun _ _ => ((), ())) equals id (show 0 < 3 by omega) (fun _ => none) twins R ch :=
  (C34_terminates twins_wf equals_equality Function.injective_id _ (show 0 < 3 by omega) (fun _ => none)).2.2

/-- A composer that selects pairs of edges by the adjacent property it's given, where each vertex is its own property. -/
def via (v : Nat) : Composer Nat Nat := ⟨fun _ _ r _ => decide (r = v), fun _ l _ l' => l + l' + 1, false, false⟩

/-- **C66.** The manual calls for an edge to be composed based on the adjacent property of the intermediate vertex, but the code uses the
property of the terminus of the second edge: in this path, a composition that depends on the property of the intermediate vertex isn't
made by any pass, and one that the manual doesn't call for is. -/
theorem C66_adjacent_property {hn : 0 < n} {R R' : Gr Nat Nat Nat} {ch ch' : Bool}
    (h : Pass (via 1) (fun G m => (G.vertex m, G.vertex m)) equals id hn (fun _ => none) (path 3) R ch)
    (h' : Pass (via 2) (fun G m => (G.vertex m, G.vertex m)) equals id hn (fun _ => none) (path 3) R' ch') :
    documented (via 1) (fun m => (m, m)) (path 3).out 0 = [(2, 2)] ∧ R.out 0 = (path 3).out 0 ∧
    documented (via 2) (fun m => (m, m)) (path 3).out 0 = [] ∧ (2, 2) ∈ R'.out 0 := by
  refine ⟨by decide, ?_, by decide, ?_⟩
  · rw [pass_out (path_wf (by omega)) h (by decide)]; decide
  · rw [pass_out (path_wf (by omega)) h' (by decide)]; decide

/-- Non-vacuity: there are such passes. -/
example : (∃ R ch, Pass (via 1) (fun G m => (G.vertex m, G.vertex m)) equals id (show 0 < 3 by omega) (fun _ => none) (path 3) R ch) ∧
    ∃ R ch, Pass (via 2) (fun G m => (G.vertex m, G.vertex m)) equals id (show 0 < 3 by omega) (fun _ => none) (path 3) R ch :=
  ⟨(C34_terminates (path_wf (by omega)) equals_equality Function.injective_id _ (show 0 < 3 by omega) (fun _ => none)).2.2,
   (C34_terminates (path_wf (by omega)) equals_equality Function.injective_id _ (show 0 < 3 by omega) (fun _ => none)).2.2⟩

/-- Non-vacuity of C67: in a path of 40 vertices, on one lane, 38 vertices are called to have a new edge. -/
example : ∃ R ch, Pass (summing false false) (fun _ _ => ((), ())) equals id (show 0 < 1 by omega) (fun _ => some 0) (path 40) R ch ∧
    ∃ m ∈ R.nodes, ∃ f ∈ called (summing false false) (fun _ => ((), ())) (path 40).out m, ∀ e ∈ R.out m, ¬ Same equals e f := by
  refine C67_kill_lost (path_wf (by omega)) equals_equality Function.injective_id rfl (show 0 < 1 by omega) (List.range 38)
    List.nodup_range (fun m hm => ?_) (by simp) (fun m hm => ?_)
  · simp only [path, List.mem_range] at hm ⊢; omega
  · rw [List.mem_range] at hm
    refine ⟨(m + (m + 1), m + 2), mem_called.2 ⟨(m, m + 1), ?_, (m + 1, m + 2), ?_, rfl, rfl⟩, ?_⟩
    · simp only [path]; rw [if_pos (by omega)]; simp
    · simp only [path]; rw [if_pos (by omega)]; simp
    · simp only [path]; rw [if_pos (by omega)]; simp [Same]

/-- Non-vacuity of C69: a path of 40 vertices on one lane. -/
example : 31 * 1 + 1 ≤ (path 40).nodes.length ∧
    (∃ m ∈ (path 40).nodes, ∃ f ∈ called (summing false true) (fun _ => ((), ())) (path 40).out m, ∀ e ∈ (path 40).out m, ¬ Same equals e f) ∧
    ∀ m ∈ (path 40).nodes, ((path 40).out m).Pairwise fun a b => ¬ Same equals a b := by
  refine ⟨by decide, ⟨0, by decide, (1, 2), by decide, ?_⟩, fun m _ => ?_⟩
  · simp [path, Same]
  · simp only [path]; split_ifs <;> simp

/-- A graph with a duplicate edge. -/
def doubled : Gr Nat Nat Nat where
  nodes := [0, 1, 2, 3]
  base := 0
  vertex := id
  out m := if m = 0 then [(1, 1), (1, 1)] else if m = 1 then [(2, 2)] else if m = 2 then [(4, 3)] else []
  inn _ := []

theorem doubled_wf : doubled.WF := wf_range (k := 4) rfl rfl (by omega) (by decide) (by decide)

/-- Compose edges whose labels are one and two, or three and four, adding them up. -/
def picky (fix : Bool) : Composer Unit Nat :=
  ⟨fun _ l _ l' => decide (l = 1 ∧ l' = 2 ∨ l = 3 ∧ l' = 4), fun _ l _ l' => l + l', false, fix⟩

/-- **C68.** With a duplicate edge in the given graph, an iterated composition can stop too early: whatever is returned for this graph,
the predicate calls for an edge it doesn't have. -/
theorem C68_stops_early {hn : 0 < n} {R : Gr Nat Nat Nat} (h : Composes (picky true) (fun _ _ => ((), ())) equals id hn doubled R) :
    (7, 3) ∈ called (picky true) (fun _ => ((), ())) R.out 0 ∧ ∀ e ∈ R.out 0, ¬ Same equals e (7, 3) := by
  have hno : ∀ {R : Gr Nat Nat Nat}, ¬ Pass (picky true) (fun _ _ => ((), ())) equals id hn (fun _ => none) doubled R true := by
    intro R hp
    have := (pass_changed doubled_wf hp).1 rfl
    revert this; decide
  cases h with
  | last hp _ =>
    have h0 : R.out 0 = [(1, 1), (3, 2)] := by rw [pass_out doubled_wf hp (by decide)]; decide
    have h2 : R.out 2 = [(4, 3)] := by rw [pass_out doubled_wf hp (by decide)]; decide
    refine ⟨mem_called.2 ⟨(3, 2), by rw [h0]; decide, (4, 3), by rw [h2]; decide, by decide, rfl⟩, ?_⟩
    rw [h0]; simp [Same]
  | more hp _ _ => exact absurd hp hno

/-- Non-vacuity: there is a result. -/
example : ∃ R, Composes (picky true) (fun _ _ => ((), ())) equals id (show 0 < 3 by omega) doubled R := by
  obtain ⟨-, -, R, ch, h⟩ := C34_terminates (mapped := fun _ _ => ((), ())) doubled_wf equals_equality Function.injective_id (picky true)
    (show 0 < 3 by omega) (fun _ => none)
  cases ch with
  | false => exact ⟨R, .last h rfl⟩
  | true => exact absurd ((pass_changed doubled_wf h).1 rfl) (by decide)

/-- Non-vacuity of C68: a path of three vertices, which takes one pass to get the edge and another to find out. -/
example : ∃ R, Composes (summing false true) (fun _ _ => ((), ())) equals id (show 0 < 3 by omega) (path 3) R ∧ R.out 0 = [(0, 1), (1, 2)] := by
  have hw : (path 3).WF := path_wf (by omega)
  obtain ⟨-, -, R, ch, h⟩ := C34_terminates (mapped := fun _ _ => ((), ())) hw equals_equality Function.injective_id (summing false true)
    (show 0 < 3 by omega) (fun _ => none)
  have hch : ch = true := (pass_changed hw h).2 ⟨0, by decide, by decide⟩
  subst hch
  have hx := C34_extends hw equals_equality Function.injective_id rfl h
  have o0 : R.out 0 = [(0, 1), (1, 2)] := by rw [pass_out hw h (by decide)]; decide
  have o1 : R.out 1 = [(1, 2)] := by rw [pass_out hw h (by decide)]; decide
  have o2 : R.out 2 = [] := by rw [pass_out hw h (by decide)]; decide
  obtain ⟨-, -, R', ch', h'⟩ := C34_terminates (mapped := fun _ _ => ((), ())) hx.wf equals_equality Function.injective_id (summing false true)
    (show 0 < 3 by omega) (fun _ => none)
  have hc0 : called (summing false true) (fun _ => ((), ())) R.out 0 = [(1, 2)] := by
    simp [called, o0, o1, o2, summing, selects]
  have hc1 : called (summing false true) (fun _ => ((), ())) R.out 1 = [] := by
    simp [called, o1, o2]
  have hc2 : called (summing false true) (fun _ => ((), ())) R.out 2 = [] := by
    simp [called, o2]
  have hch' : ch' = false := by
    rw [Bool.eq_false_iff]
    intro hc
    obtain ⟨m, hm, hne⟩ := (pass_changed hx.wf h').1 hc
    have hm' := hx.nodes.mem_iff.1 hm
    have : m = 0 ∨ m = 1 ∨ m = 2 := by simp only [path, List.mem_range] at hm'; omega
    rcases this with rfl | rfl | rfl
    · rw [o0, hc0] at hne; revert hne; decide
    · rw [o1, hc1] at hne; revert hne; decide
    · rw [o2, hc2] at hne; revert hne; decide
  subst hch'
  refine ⟨R', .more h rfl (.last h' rfl), ?_⟩
  rw [pass_out hx.wf h' (hx.nodes.mem_iff.2 (by decide)), o0, hc0, marks_none rfl]
  decide

end Cru.Compose
