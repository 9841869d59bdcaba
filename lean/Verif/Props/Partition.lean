import Verif.Model.Partition
import Verif.Props.Classify
import Mathlib.Tactic.Abel
import Mathlib.Algebra.Order.Group.Multiset

/-! # C22 for all of `cru_partition_of`, C63: a kill that is lost, C64: properties are freed -/

namespace Cru.Partition

open Net

variable {n : Nat} {N V L X : Type} [DecidableEq N] [DecidableEq V] [DecidableEq X] {g : Gr N V L}
  {c : Classifier N X} {addr : N → Nat} {val : N → Option X} {same : Option X → Option X → Bool}

/-- An end of the first phase of `cru_partition_of`. -/
def Sets (g : Gr N V L) (c : Classifier N X) (addr : N → Nat) (hn : 0 < n) (x : State n N (Trav.Job n N (Mem N X))) : Prop :=
  Net.Reach (setTask g c.map addr hn) g.base (Trav.start clear) x ∧ x.main = .done

/-- While properties are being set. -/
structure SetInv (seen : Fin n → List N) (err : Fin n → Int) (val : N → Option X) (s : Mem N X) : Prop where
  noErr : ∀ i, err i = 0
  set : ∀ i, ∀ m ∈ seen i, s.prop m = val m
  unset : ∀ m, (∀ i, m ∉ seen i) → s.prop m = none

omit [DecidableEq V] in
theorem set_inv (hmap : ∀ t m, c.map t m = (val m, 0)) {hn : 0 < n} :
    ∀ x, Bag.Reach (setTask g c.map addr hn) g.base (Trav.start clear) x →
      SetInv x.1.seen x.1.err val x.1.mem ∧ ∀ i, ∀ m ∈ x.1.seen i, Build.lane hn (addr m) = i := by
  refine Trav.induct (motive := fun seen err s => SetInv seen err val s ∧ ∀ i, ∀ m ∈ seen i, Build.lane hn (addr m) = i) ?_ ?_
  · exact ⟨⟨fun _ => rfl, by simp, fun _ _ => rfl⟩, by simp⟩
  · rintro seen err s m ⟨h, hl⟩ - - hm
    generalize hi : Build.lane hn (addr m) = i at *
    have hno : ∀ j, m ∉ seen j := by
      intro j hj
      have := hl j m hj
      rw [hi] at this
      subst this
      exact hm hj
    have hv : setOne c.map s m = ({ s with prop := Function.update s.prop m (val m), clock := s.clock + 1, made := s.made + ofOption (val m) }, 0) := by
      unfold setOne
      rw [h.unset m hno]
      simp [hmap]
    rw [hv]
    refine ⟨⟨fun j => ?_, fun j a ha => ?_, fun a ha => ?_⟩, fun j a ha => ?_⟩
    · by_cases hj : j = i
      · subst hj; simp
      · rw [Function.update_of_ne hj]; exact h.noErr j
    · by_cases ham : a = m
      · subst ham; simp
      · simp only [Function.update_of_ne ham]
        by_cases hj : j = i
        · subst hj
          simp [ham] at ha
          exact h.set j a ha
        · rw [Function.update_of_ne hj] at ha; exact h.set j a ha
    · have ham : a ≠ m := by
        rintro rfl
        exact ha i (by simp)
      simp only [Function.update_of_ne ham]
      refine h.unset a fun j hj => ha j ?_
      by_cases hji : j = i
      · subst hji; simp [hj]
      · rwa [Function.update_of_ne hji]
    · by_cases hj : j = i
      · subst hj
        simp at ha
        rcases ha with ha | rfl
        · exact hl j a ha
        · exact hi
      · rw [Function.update_of_ne hj] at ha; exact hl j a ha

/-- **C22, all of `cru_partition_of`.** If the operation isn't killed while properties are set and ends without an error, then every
vertex has a class, two vertices have the same class if and only if the results of the property for them are equal, and the
size of a class is the number of vertices in it. -/
theorem C22_partition (hmap : ∀ t m, c.map t m = (val m, 0)) (heq : ∀ t x y, c.equal t x y = (same x y, 0)) (hs : IsEquality same)
    (hh : HashRespects c.hash same) {hn : 0 < n} {ms : List N} (hm : Covers (g.next false) g.base ms) (hd : (ms.map g.vertex).Nodup)
    {x : State n N (Trav.Job n N (Mem N X))} (hx : Sets g c addr hn x) (hk : x.g.killed = 0)
    {result : Option (Classify.Mem n N V)} {s' : Mem N X} (hf : Finishes g c addr hn x.g result 0 s') :
    ∃ s, result = some s ∧ ∀ a ∈ ms, ∃ k, Classify.classOf s (g.vertex a) = some k ∧
      (∀ b ∈ ms, Classify.classOf s (g.vertex b) = some k ↔ same (val a) (val b) = true) ∧
      Classify.classSize s k = ms.countP fun b => same (val a) (val b) := by
  obtain ⟨hi, hl⟩ := set_inv hmap _ (reach_bag hn hx.1)
  obtain ⟨e₁, hst, ⟨h0, -, he, -⟩ | ⟨h0, y, hy, hyd, w, hw, hr, -⟩⟩ := hf
  · exact absurd he.symm h0
  have hr' := hr
  unfold Classify.returned at hr
  rw [Prod.mk.injEq] at hr
  refine ⟨y.g.mem, hr.1, ?_⟩
  have hp := Trav.done_perm hx.1 hx.2 hk hi.noErr hm
  have hval : ∀ a ∈ ms, x.g.mem.prop a = val a := by
    intro a ha
    obtain ⟨i, -, h⟩ := List.mem_flatMap.1 (hp.mem_iff.2 ha)
    exact hi.set i a h
  intro a ha
  obtain ⟨k, h1, h2, h3⟩ := Classify.C22_groups heq hs hh hm hd
    (s := y.g.mem) (prop := x.g.mem.prop) (hn := hn) ⟨y, hy, hyd, w, by
      rcases hw with ⟨i, h, h'⟩ | ⟨h, h'⟩
      · exact .inl ⟨i, h, h'⟩
      · exact .inr ⟨h, h'⟩, by rw [← hr', hr.1]⟩ a ha
  refine ⟨k, h1, fun b hb => ?_, ?_⟩
  · rw [h2 b hb, hval a ha, hval b hb]
  · rw [h3]
    refine List.countP_congr fun b hb => ?_
    rw [hval a ha, hval b hb]

/-- Unsetting can be done. -/
theorem unsets_exists (g : Gr N V L) (destroy : Nat → X → Int) (addr : N → Nat) (hn : 0 < n) {ms : List N}
    (hm : ∀ m, Reaches (g.next false) g.base m → m ∈ ms) (s : Mem N X) (e : Int) : ∃ s', Unsets g destroy addr hn s e s' := by
  unfold Unsets
  by_cases h : e = 0 ∨ e = Build.intKil
  · simp only [if_pos h]
    obtain ⟨x, hx, hd⟩ := (Trav.quiet_ends (fun _ : Fin n => unsetOne destroy) addr hn s hm).2
    have : ∃ e', Status x.g.err e' := by
      by_cases hz : ∀ i, x.g.err i = 0
      · exact ⟨0, .inr ⟨rfl, hz⟩⟩
      · rw [not_forall] at hz
        obtain ⟨i, hi⟩ := hz
        exact ⟨_, .inl ⟨i, rfl, hi⟩⟩
    obtain ⟨e', he'⟩ := this
    exact ⟨_, x, hx, hd, e', he', rfl⟩
  · simp only [if_neg h]
    exact ⟨_, rfl⟩

theorem pairwise_ne (hs : IsEquality same) {ms : List N} (hv : ms.Pairwise fun a b => same (val a) (val b) = false) {a b : N}
    (ha : a ∈ ms) (hb : b ∈ ms) (hab : a ≠ b) : same (val a) (val b) = false := by
  have hsym : ∀ a b, same (val a) (val b) = false → same (val b) (val a) = false := by
    intro a b h
    by_contra hc
    rw [Bool.not_eq_false] at hc
    rw [hs.symm _ _ hc] at h
    cases h
  induction hv with
  | nil => cases ha
  | cons h _ ih =>
    rcases List.mem_cons.1 ha with e | ha'
    · rcases List.mem_cons.1 hb with e' | hb'
      · exact absurd (e.trans e'.symm) hab
      · rw [e]; exact h b hb'
    · rcases List.mem_cons.1 hb with e' | hb'
      · rw [e']; exact hsym _ _ (h a ha')
      · exact ih ha' hb'

/-- **C63.** A kill can be lost.  For any graph with at least `31 * n + 2` vertices whose properties are unequal and non-null, on
`n` lanes, there's an execution of `cru_partition_of` in which the switch is used while properties are being set, but which
ends without an error, with a partition that has different vertices with unequal properties in the same class. -/
theorem C63_kill_lost (hmap : ∀ t m, c.map t m = (val m, 0)) (heq : ∀ t x y, c.equal t x y = (same x y, 0)) (hs : IsEquality same)
    (hh : HashRespects c.hash same) (hn : 0 < n) {ms : List N} (hm : Covers (g.next false) g.base ms) (hd : (ms.map g.vertex).Nodup)
    (hlarge : 31 * n + 2 ≤ ms.length) (hv : ms.Pairwise fun a b => same (val a) (val b) = false) :
    ∃ (x : State n N (Trav.Job n N (Mem N X))) (s : Classify.Mem n N V) (s' : Mem N X), Sets g c addr hn x ∧ x.g.killed ≠ 0 ∧
      Finishes g c addr hn x.g (some s) 0 s' ∧
      ∃ a ∈ ms, ∃ b ∈ ms, a ≠ b ∧ same (val a) (val b) = false ∧ ∃ k, Classify.classOf s (g.vertex a) = some k ∧
        Classify.classOf s (g.vertex b) = some k := by
  obtain ⟨x, hx, hdone, hfew, hk⟩ := Trav.killed_few (fun _ : Fin n => setOne c.map) addr hn (next := g.next false) (a := g.base) clear
    (fun m h => (hm.mem m).2 h) (fun s => s.killed ≠ 0) Nat.one_ne_zero (by
      intro i s m h
      simp only [Trav.handle]
      obtain ⟨sample, stop, e, -⟩ := Trav.poll_eq s i
      rw [e]
      split_ifs <;> exact h)
  obtain ⟨hi, hl⟩ := set_inv (g := g) (addr := addr) hmap (hn := hn) _ (reach_bag hn hx)
  -- unvisited nodes
  obtain ⟨a, ha, b, hb, hab, hna, hnb⟩ := Trav.two_unvisited hfew hm.nodup hlarge
  have hpa := hi.unset a hna
  have hpb := hi.unset b hnb
  obtain ⟨s, hr⟩ := (Classify.C22_terminates (prop := x.g.mem.prop) heq hs hh hn hm hd).2
  obtain ⟨y, hy, hyd, w, hw, hret⟩ := hr
  obtain ⟨s', hs'⟩ := unsets_exists g c.destroy addr hn (fun m h => (hm.mem m).2 h) x.g.mem w
  refine ⟨x, s, s', ⟨hx, hdone⟩, hk, ⟨0, .inr ⟨rfl, hi.noErr⟩, .inr ⟨rfl, y, hy, hyd, w, hw, hret.symm, hs'⟩⟩, a, ha, b, hb, hab, ?_, ?_⟩
  · exact pairwise_ne hs hv ha hb hab
  · obtain ⟨k, h1, h2, -⟩ := Classify.C22_groups heq hs hh hm hd ⟨y, hy, hyd, w, hw, hret⟩ a ha
    exact ⟨k, h1, (h2 b hb).2 (by
      show same (x.g.mem.prop a) (x.g.mem.prop b) = true
      rw [show x.g.mem.prop a = none from hpa, show x.g.mem.prop b = none from hpb]; exact hs.refl _)⟩

/-- What is allocated is freed or held by a node. -/
def Held (nodes : List N) (s : Mem N X) : Prop :=
  s.made = s.freed + (nodes.map fun m => ofOption (s.prop m)).sum ∧ ∀ m, m ∉ nodes → s.prop m = none

theorem ofOption_none : ofOption (none : Option X) = 0 := rfl

theorem ofOption_some (x : X) : ofOption (some x) = {x} := rfl

theorem sum_set {nodes : List N} (hd : nodes.Nodup) {m : N} (hm : m ∈ nodes) (f : N → Option X) (x : Option X) :
    (nodes.map fun a => ofOption (Function.update f m x a)).sum + ofOption (f m) =
      (nodes.map fun a => ofOption (f a)).sum + ofOption x := by
  induction nodes with
  | nil => cases hm
  | cons b l ih =>
    obtain ⟨h1, h2⟩ := List.nodup_cons.1 hd
    simp only [List.map_cons, List.sum_cons]
    rcases List.mem_cons.1 hm with rfl | hm
    · have : (l.map fun a => ofOption (Function.update f m x a)) = l.map fun a => ofOption (f a) := by
        refine List.map_congr_left fun a ha => ?_
        rw [Function.update_of_ne]
        rintro rfl
        exact h1 ha
      rw [this, Function.update_self]
      abel
    · have hne : b ≠ m := by rintro rfl; exact h1 hm
      rw [Function.update_of_ne hne, add_assoc, ih h2 hm]
      abel

theorem held_set {nodes : List N} (hd : nodes.Nodup) {s : Mem N X} (h : Held nodes s) {m : N} (hm : m ∈ nodes)
    (map : Nat → N → Option X × Int) : Held nodes (setOne map s m).1 := by
  unfold setOne
  rcases hp : s.prop m with _ | x
  · simp only
    split_ifs
    · refine ⟨?_, fun a ha => ?_⟩
      · have := sum_set hd hm s.prop (map s.clock m).1
        rw [hp] at this
        simp only [ofOption_none, ofOption_some, add_zero] at this
        rw [show (nodes.map fun a => ofOption (Function.update s.prop m (map s.clock m).1 a)).sum = _ from this, h.1]
        abel_nf
      · have : a ≠ m := by rintro rfl; exact ha hm
        simp only [Function.update_of_ne this]
        exact h.2 a ha
    · refine ⟨?_, h.2⟩
      simp only [h.1]
      abel
  · exact h

theorem held_unset {nodes : List N} (hd : nodes.Nodup) {s : Mem N X} (h : Held nodes s) (m : N)
    (destroy : Nat → X → Int) : Held nodes (unsetOne destroy s m).1 := by
  unfold unsetOne
  rcases hp : s.prop m with _ | x
  · exact h
  · have hm : m ∈ nodes := by
      by_contra hc
      rw [h.2 m hc] at hp
      cases hp
    refine ⟨?_, fun a ha => ?_⟩
    · have := sum_set hd hm s.prop none
      rw [hp] at this
      simp only [ofOption_none, ofOption_some, add_zero] at this
      simp only [h.1, ← this]
      abel
    · have : a ≠ m := by rintro rfl; exact ha hm
      simp only [Function.update_of_ne this]
      exact h.2 a ha

theorem unprop_held {nodes : List N} (hd : nodes.Nodup) (destroy : Nat → X → Int) (l : List N) :
    ∀ {s : Mem N X}, Held nodes s → Held nodes (unprop destroy l s) ∧ (∀ m ∈ l, (unprop destroy l s).prop m = none) ∧
      ∀ m, s.prop m = none → (unprop destroy l s).prop m = none := by
  induction l with
  | nil => intro s h; exact ⟨h, by simp, fun _ h => h⟩
  | cons a l ih =>
    intro s h
    have hk := ih (held_unset hd h a destroy)
    have hkeep : ∀ m, s.prop m = none → (unsetOne destroy s a).1.prop m = none := by
      intro m hm
      unfold unsetOne
      rcases hp : s.prop a with _ | x
      · exact hm
      · by_cases hma : m = a
        · subst hma; simp
        · simp [Function.update_of_ne hma, hm]
    have hgone : (unsetOne destroy s a).1.prop a = none := by
      unfold unsetOne
      rcases hp : s.prop a with _ | x
      · exact hp
      · simp
    refine ⟨hk.1, fun m hm => ?_, fun m hm => hk.2.2 m (hkeep m hm)⟩
    rcases List.mem_cons.1 hm with rfl | hm
    · exact hk.2.2 m hgone
    · exact hk.2.1 m hm

theorem held_none {nodes : List N} {s : Mem N X} (h : Held nodes s) (hn : ∀ m ∈ nodes, s.prop m = none) :
    s.made = s.freed ∧ ∀ m, s.prop m = none := by
  refine ⟨?_, fun m => ?_⟩
  · have : (nodes.map fun m => ofOption (s.prop m)) = nodes.map fun _ => 0 :=
      List.map_congr_left fun m hm => by rw [hn m hm]; rfl
    rw [h.1, this]
    simp
  · by_cases hm : m ∈ nodes
    · exact hn m hm
    · exact h.2 m hm

theorem unsets_none (hwf : g.WF) {destroy : Nat → X → Int} {hn : 0 < n} {s s' : Mem N X} {e : Int} (h : Held g.nodes s)
    (hu : Unsets g destroy addr hn s e s') : s'.made = s'.freed ∧ ∀ m, s'.prop m = none := by
  have hc : Covers (g.next false) g.base g.nodes := ⟨hwf.nodup, hwf.reach⟩
  unfold Unsets at hu
  by_cases he : e = 0 ∨ e = Build.intKil
  · rw [if_pos he] at hu
    obtain ⟨x, hx, hd, e', he', hs'⟩ := hu
    obtain ⟨hx', hk⟩ := Trav.quiet_reach hx
    have hi : ∀ z, Bag.Reach (Trav.task (g.next false) (fun _ : Fin n => unsetOne destroy) addr hn) g.base (Trav.start s) z →
        Held g.nodes z.1.mem ∧ (∀ i, ∀ m ∈ z.1.seen i, z.1.mem.prop m = none) := by
      refine Trav.induct (motive := fun seen _ s => Held g.nodes s ∧ ∀ i, ∀ m ∈ seen i, s.prop m = none) ⟨h, by simp⟩ ?_
      rintro seen err t m ⟨h1, h2⟩ - - -
      have h3 := unprop_held hwf.nodup destroy [m] h1
      have h4 : unprop destroy [m] t = (unsetOne destroy t m).1 := rfl
      rw [h4] at h3
      refine ⟨h3.1, fun j a ha => ?_⟩
      by_cases ham : a = m
      · subst ham; exact h3.2.1 a (by simp)
      · refine h3.2.2 a ?_
        by_cases hj : j = Build.lane hn (addr m)
        · subst hj
          simp [ham] at ha
          exact h2 _ a ha
        · rw [Function.update_of_ne hj] at ha; exact h2 j a ha
    obtain ⟨h1, h2⟩ := hi _ (reach_bag hn hx')
    by_cases hz : e = 0 ∧ e' = 0
    · rw [if_pos hz] at hs'
      subst hs'
      refine held_none h1 fun m hm => ?_
      rcases he' with ⟨i, -, h0⟩ | ⟨-, h0⟩
      · exact absurd hz.2 h0
      · obtain ⟨i, -, hi⟩ := List.mem_flatMap.1 ((Trav.done_perm hx' hd hk h0 hc).mem_iff.2 hm)
        exact h2 i m hi
    · rw [if_neg hz] at hs'
      subst hs'
      have h3 := unprop_held hwf.nodup destroy g.nodes h1
      exact held_none h3.1 h3.2.1
  · rw [if_neg he] at hu
    subst hu
    have h3 := unprop_held hwf.nodup destroy g.nodes h
    exact held_none h3.1 h3.2.1

/-- **C64.** However `cru_partition_of` ends, with or without errors in any of the user's functions and kills, every property made has
been freed once, and none is left in the graph. -/
theorem C64_freed (hwf : g.WF) {hn : 0 < n} {x : State n N (Trav.Job n N (Mem N X))} (hx : Sets g c addr hn x)
    {result : Option (Classify.Mem n N V)} {e : Int} {s' : Mem N X} (hf : Finishes g c addr hn x.g result e s') :
    s'.made = s'.freed ∧ ∀ m, s'.prop m = none := by
  have h : ∀ z, Bag.Reach (setTask g c.map addr hn) g.base (Trav.start clear) z → Held g.nodes z.1.mem := by
    refine Trav.induct (motive := fun _ _ s => Held g.nodes s) ?_ ?_
    · refine ⟨?_, fun _ _ => rfl⟩
      have : (g.nodes.map fun m => ofOption ((clear : Mem N X).prop m)) = g.nodes.map fun _ => 0 := rfl
      rw [this]
      simp [clear]
    · rintro seen err s m h hr - -
      exact held_set hwf.nodup h ((hwf.reach m).2 hr) c.map
  have hh := h _ (reach_bag hn hx.1)
  obtain ⟨e₁, -, ⟨-, -, -, hu⟩ | ⟨-, y, -, -, w, -, -, hu⟩⟩ := hf
  · exact unsets_none hwf hh hu
  · exact unsets_none hwf hh hu

/-! Demonstration: a chain of forty vertices. -/

def chain : Gr Nat Nat Nat where
  nodes := List.range 40
  base := 0
  vertex := id
  out m := if m < 39 then [(0, m + 1)] else []
  inn _ := []

theorem chain_wf : chain.WF := by
  refine ⟨List.nodup_range, fun m => ⟨fun h => ?_, fun h => ?_⟩⟩
  · have hm : m < 40 := by simpa [chain] using h
    clear h
    induction m with
    | zero => exact .refl
    | succ m ih => exact (ih (by omega)).tail (by simp [chain, Gr.next, show m < 39 by omega])
  · induction h with
    | refl => simp [chain]
    | tail _ hb ih =>
      simp only [chain, Gr.next] at hb ih ⊢
      rw [List.mem_range] at ih ⊢
      simp only [Bool.false_eq_true, if_false] at hb
      split_ifs at hb <;> simp at hb <;> omega

/-- The property of a vertex is the vertex. -/
def itself : Classifier Nat Nat := ⟨fun _ m => (some m, 0), fun x => x.getD 0, fun _ x y => (x == y, 0), fun _ _ => 0⟩

theorem itself_equality : IsEquality (fun x y : Option Nat => x == y) := ⟨by simp, by simp, by simp⟩

theorem itself_respects : HashRespects itself.hash (fun x y : Option Nat => x == y) := by
  intro a b h
  have : a = b := by simpa using h
  rw [this]

/-- Non-vacuity of `C63_kill_lost`, and of the hypotheses of `C64_freed`. -/
example : ∃ (x : State 1 Nat (Trav.Job 1 Nat (Mem Nat Nat))) (s : Classify.Mem 1 Nat Nat) (s' : Mem Nat Nat),
    Sets chain itself id (by decide) x ∧ x.g.killed ≠ 0 ∧ Finishes chain itself id (by decide) x.g (some s) 0 s' ∧
      s'.made = s'.freed ∧ ∃ a b, a ≠ b ∧ ∃ k, Classify.classOf s a = some k ∧ Classify.classOf s b = some k := by
  obtain ⟨x, s, s', h1, h2, h3, a, -, b, -, hab, -, k, h4, h5⟩ := C63_kill_lost (g := chain) (c := itself) (addr := id) (val := some)
    (fun _ _ => rfl) (fun _ _ _ => rfl) itself_equality itself_respects (show 0 < 1 by decide) ⟨chain_wf.nodup, chain_wf.reach⟩
    (by simp [chain, List.nodup_range]) (by simp [chain])
    (by
      refine List.nodup_range.imp ?_
      intro a b h
      simpa using h)
  exact ⟨x, s, s', h1, h2, h3, (C64_freed chain_wf h1 h3).1, a, b, hab, k, h4, h5⟩

/-- Non-vacuity of `C22_partition`. -/
example : ∃ (x : State 3 Nat (Trav.Job 3 Nat (Mem Nat Nat))) (s : Classify.Mem 3 Nat Nat) (s' : Mem Nat Nat),
    Sets chain itself id (by decide) x ∧ x.g.killed = 0 ∧ Finishes chain itself id (by decide) x.g (some s) 0 s' ∧
      ∃ k, Classify.classOf s 5 = some k ∧ Classify.classSize s k = 1 := by
  have hc : Covers (chain.next false) chain.base chain.nodes := ⟨chain_wf.nodup, chain_wf.reach⟩
  have hd : (chain.nodes.map chain.vertex).Nodup := by simp [chain, List.nodup_range]
  obtain ⟨x, hx, hdone, hk⟩ := (Trav.ends (fun _ : Fin 3 => setOne itself.map) id (show 0 < 3 by decide) (next := chain.next false)
    (a := chain.base) clear (fun m h => (chain_wf.reach m).2 h)).2
  have hi := (set_inv (g := chain) (c := itself) (addr := id) (val := some) (fun _ _ => rfl) _ (reach_bag (by decide) hx)).1
  obtain ⟨s, y, hy, hyd, w, hw, hret⟩ := (Classify.C22_terminates (g := chain) (prop := x.g.mem.prop) (hash := itself.hash)
    (eq := itself.equal) (fun _ _ _ => rfl) itself_equality itself_respects (show 0 < 3 by decide) hc hd).2
  obtain ⟨s', hs'⟩ := unsets_exists chain itself.destroy id (show 0 < 3 by decide) (fun m h => (chain_wf.reach m).2 h) x.g.mem w
  have hf : Finishes chain itself id (by decide) x.g (some s) 0 s' :=
    ⟨0, .inr ⟨rfl, hi.noErr⟩, .inr ⟨rfl, y, hy, hyd, w, hw, hret.symm, hs'⟩⟩
  obtain ⟨t, ht, h⟩ := C22_partition (val := some) (fun _ _ => rfl) (fun _ _ _ => rfl) itself_equality itself_respects hc hd ⟨hx, hdone⟩ hk hf
  cases ht
  obtain ⟨k, h1, -, h3⟩ := h 5 (by decide)
  exact ⟨x, s, s', ⟨hx, hdone⟩, hk, hf, k, h1, by rw [h3]; decide⟩

end Cru.Partition
