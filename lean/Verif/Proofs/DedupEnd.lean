import Verif.Proofs.Dedup
import Verif.Proofs.FilterEnd
import Verif.Proofs.NetExec

/-! # The outcome of deduplication -/

namespace Cru.Dedup

open Net

variable {n : Nat} {N V L : Type} [DecidableEq N] [DecidableEq V] [DecidableEq L]
variable {o : Orders V L} {g : Gr N V L} {addr : N → Nat} {hn : 0 < n}

/-- The job terminates. -/
theorem acc (ho : o.Lawful) (hw : g.WF) :
    ∀ x, Bag.Reach (task o g addr hn) ⟨g.base, none⟩ (start g) x → Acc (fun y x => Bag.Handles (task o g addr hn) x y) x := by
  classical
  refine Bag.acc_of_lex (fun x => ((g.nodes.toFinset.filter fun m => ∀ b, ¬ Mt o g hn x.1.mem m b).card, Multiset.card x.2, 0)) ?_
  rintro ⟨s, bag⟩ y hx ⟨p, rest, h1, h2⟩
  simp only at h1 h2
  subst h1 h2
  have hf := full_reach ho _ hx
  dsimp only at hf ⊢
  have hpn : p.node ∈ g.nodes := (hw.reach _).2 (hf.reaches ho (Multiset.mem_cons_self _ _))
  by_cases he : s.err (ln o g hn p.node) = 0
  · obtain ⟨h1, h2⟩ := handled (addr := addr) he
    rw [h1, h2]
    have hx := act_outcome (addr := addr) (p := p) ho hf.inv fun hc => by
      rcases hf.first with ⟨-, h, -⟩ | ⟨-, h⟩
      · exact h
      · exact absurd hc (h p (Multiset.mem_cons_self _ _))
    have hless : ∀ M : Mem n N L, (∀ m b, Mt o g hn s.mem m b → Mt o g hn M m b) → (∀ b, ¬ Mt o g hn s.mem p.node b) → (∃ b, Mt o g hn M p.node b) →
        (g.nodes.toFinset.filter fun m => ∀ b, ¬ Mt o g hn M m b).card < (g.nodes.toFinset.filter fun m => ∀ b, ¬ Mt o g hn s.mem m b).card := by
      intro M hM h0 ⟨b, h⟩
      refine Finset.card_lt_card (Finset.ssubset_iff_of_subset ?_ |>.2 ⟨p.node, ?_, ?_⟩)
      · intro m hm
        rw [Finset.mem_filter] at hm ⊢
        exact ⟨hm.1, fun b hb => hm.2 b (hM _ _ hb)⟩
      · rw [Finset.mem_filter]; exact ⟨List.mem_toFinset.2 hpn, h0⟩
      · rw [Finset.mem_filter]; exact fun h' => h'.2 b h
    generalize act o g addr (ln o g hn p.node) s p = w at hx
    cases hx with
    | error => right; exact ⟨le_rfl, .inl (by simp)⟩
    | known => right; exact ⟨le_rfl, .inl (by simp)⟩
    | store d hd hd' hm hc => left; exact hless _ (fun m b h => mt_stored.2 (.inl h)) hm ⟨true, mt_stored.2 (.inr ⟨rfl, rfl⟩)⟩
    | again c e hcar hm hc hs hq =>
      right
      refine ⟨Finset.card_le_card fun m hm => ?_, .inl (by simp)⟩
      rw [Finset.mem_filter] at hm ⊢
      exact ⟨hm.1, fun b hb => hm.2 b (mt_graft.2 (.inl hb))⟩
    | fuse c e hcar d hd hd' hm hc hs hq => left; exact hless _ (fun m b h => mt_graft.2 (.inl h)) hm ⟨false, mt_graft.2 (.inr ⟨rfl, rfl⟩)⟩
  · obtain ⟨h1, h2⟩ := unhandled (addr := addr) he
    rw [h1, h2]
    right
    exact ⟨le_rfl, .inl (by simp)⟩

theorem status_zero {s : Job n N L} : status s = 0 ↔ ∀ i, s.err i = 0 := by
  unfold status
  have key : ∀ (l : List Int) (a : Int), l.foldl (fun r e => if r = 0 then e else r) a = 0 ↔ a = 0 ∧ ∀ e ∈ l, e = 0 := by
    intro l
    induction l with
    | nil => simp
    | cons e l ih =>
      intro a
      rw [List.foldl_cons, ih]
      by_cases ha : a = 0
      · simp [ha]
      · simp [ha]
  rw [key]
  simp

theorem status_mem {s : Job n N L} (h : status s ≠ 0) : ∃ i, s.err i = status s := by
  unfold status at h ⊢
  have key : ∀ (l : List Int) (a : Int), l.foldl (fun r e => if r = 0 then e else r) a = a ∨ l.foldl (fun r e => if r = 0 then e else r) a ∈ l := by
    intro l
    induction l with
    | nil => simp
    | cons e l ih =>
      intro a
      rw [List.foldl_cons]
      by_cases ha : a = 0
      · rw [if_pos ha]
        rcases ih e with h | h
        · rw [h]; simp
        · exact .inr (List.mem_cons_of_mem _ h)
      · rw [if_neg ha]
        rcases ih a with h | h
        · exact .inl h
        · exact .inr (List.mem_cons_of_mem _ h)
  rcases key ((List.finRange n).map s.err) 0 with h' | h'
  · exact absurd h' h
  · obtain ⟨i, -, hi⟩ := List.mem_map.1 h'
    exact ⟨i, hi⟩

omit [DecidableEq V] [DecidableEq L] in
theorem pruned {out : N → List (L × N)} {a : N} {addr : N → Nat} {z : State n N (Trav.Job n N Unit)}
    (hz : Net.Reach (Filter.pruning out addr hn) a (Trav.start ()) z)
    (hd : z.main = .done) (hk : z.g.killed = 0) : Covers (fun m => (out m).map Prod.snd) a (kept z.g) := by
  have := Filter.pruned hz hd hk
  have hstop := Trav.stop_inv _ (reach_bag hn hz) hk
  have hleft : Filter.left z.g = kept z.g := by
    unfold Filter.left kept
    refine List.flatMap_congr fun i _ => ?_
    rw [show z.g.stop i = false from hstop i]; rfl
  rwa [← hleft]

/-- The memory in the end, when nothing went wrong. -/
structure Final (o : Orders V L) (g : Gr N V L) (addr : N → Nat) (hn : 0 < n) (M : Mem n N L) : Prop where
  inv : Inv o g addr hn M
  base : Mt o g hn M g.base true
  far : ∀ m b, Mt o g hn M m b → ∀ e ∈ D o g addr m, Mt o g hn M (M.far e) true ∧ Eqv o g e.tgt (M.far e) ∧ ∃ b, Mt o g hn M e.tgt b

theorem final (ho : o.Lawful) {y : State n (Pkt N L) (Job n N L)} (hy : Net.Reach (task o g addr hn) ⟨g.base, none⟩ (start g) y)
    (hd : y.main = .done) (hs : status y.g = 0) : Final o g addr hn y.g.mem := by
  have hf := full_reach ho _ (Rover.done_bag hn hy hd)
  dsimp only at hf
  refine ⟨hf.inv, ?_, fun m b hm e he => ?_⟩
  · rcases hf.first with ⟨h, -⟩ | ⟨h, -⟩
    · simp at h
    · exact h
  · rcases hf.far (status_zero.1 hs) m b hm e he with ⟨h, -⟩ | h
    · simp at h
    · exact h

variable {M : Mem n N L}

omit [DecidableEq N] [DecidableEq V] [DecidableEq L] in
theorem Final.all (hF : Final o g addr hn M) (ho : o.Lawful) (ha : Function.Injective addr) {m : N} (h : Reaches (g.next false) g.base m) :
    ∃ b, Mt o g hn M m b := by
  induction h with
  | refl => exact ⟨_, hF.base⟩
  | tail _ hb ih =>
    obtain ⟨b, ih⟩ := ih
    obtain ⟨f, hf, rfl⟩ := List.mem_map.1 hb
    obtain ⟨e, he, -, h2⟩ := D_covers (addr := addr) ho ha hf
    rw [← h2]
    exact (hF.far _ _ ih e he).2.2

omit [DecidableEq N] [DecidableEq V] [DecidableEq L] in
/-- Nodes reached in the end are stored. -/
theorem Final.kept (hF : Final o g addr hn M) {m : N} (h : Reaches (fun m => (ends M m).map Prod.snd) g.base m) : Mt o g hn M m true := by
  induction h with
  | refl => exact hF.base
  | tail _ hb ih =>
    obtain ⟨f, hf, rfl⟩ := List.mem_map.1 hb
    obtain ⟨e, he, rfl⟩ := List.mem_map.1 hf
    obtain ⟨h1, ⟨b, h2⟩, -⟩ := hF.inv.own _ ih e he
    exact (hF.far _ _ h2 e h1).1

omit [DecidableEq N] [DecidableEq V] [DecidableEq L] in
theorem Final.fuses (hF : Final o g addr hn M) (ho : o.Lawful) (hw : g.WF) {z : Trav.Job n N Unit}
    (hz : Covers (fun m => (ends M m).map Prod.snd) g.base (Dedup.kept z)) : Fuses o g (result g M z) := by
  have hk : ∀ c ∈ Dedup.kept z, Mt o g hn M c true := fun c hc => hF.kept ((hz.mem c).1 hc)
  refine ⟨rfl, rfl, fun c hc => (hw.reach _).2 (hF.inv.reach _ _ (hk c hc)), fun _ _ => rfl, hz, ?_, fun c hc e he => ?_⟩
  · refine List.Pairwise.imp_of_mem ?_ hz.nodup
    intro a b h1 h2 hne hs
    exact hne (hF.inv.reps a b (hk a h1) (hk b h2) hs)
  · obtain ⟨f, hf, rfl⟩ := List.mem_map.1 he
    obtain ⟨h1, ⟨b, h2⟩, h3⟩ := hF.inv.own c (hk c hc) f hf
    exact ⟨f.src, (hw.reach _).2 (hF.inv.reach _ _ h2), h3, _, D_out ho h1, rfl, (hF.far _ _ h2 f h1).2.1⟩

omit [DecidableEq N] [DecidableEq V] [DecidableEq L] in
theorem Final.complete (hF : Final o g addr hn M) (ho : o.Lawful) (ha : Function.Injective addr) (hw : g.WF) (hr : Regular o g) {z : Trav.Job n N Unit}
    (hz : Covers (fun m => (ends M m).map Prod.snd) g.base (Dedup.kept z)) : Complete o g (result g M z) := by
  have hk : ∀ c ∈ Dedup.kept z, Mt o g hn M c true := fun c hc => hF.kept ((hz.mem c).1 hc)
  have hin : ∀ m b, Mt o g hn M m b → m ∈ g.nodes := fun m b h => (hw.reach _).2 (hF.inv.reach _ _ h)
  have hmet : ∀ m ∈ g.nodes, ∃ b, Mt o g hn M m b := fun m h => hF.all ho ha ((hw.reach _).1 h)
  have hedges : ∀ m ∈ g.nodes, ∀ f ∈ g.out m, ∀ c ∈ Dedup.kept z, Eqv o g m c →
      ∃ e ∈ ends M c, o.leq e.1 f.1 = true ∧ Eqv o g f.2 e.2 := by
    intro m hm f hf c hc hs
    have hct := hk c hc
    obtain ⟨b, hmb⟩ := hmet m hm
    obtain ⟨e, he, h1, h2⟩ := D_covers (addr := addr) ho ha hf
    obtain ⟨e', he', h3⟩ := hF.inv.cover c m b hct hmb hs e he
    obtain ⟨h4, ⟨b', h5⟩, h6⟩ := hF.inv.own c hct e' he'
    by_cases hal : ∃ a, Mt o g hn M a false ∧ Eqv o g a c
    · refine ⟨(e'.label, M.far e'), List.mem_map.2 ⟨e', he', rfl⟩, ho.label.trans _ _ _ h3 h1, ?_⟩
      obtain ⟨a, ha1, ha2⟩ := hal
      have hac : a ≠ c := by rintro rfl; exact hF.inv.once _ hct ha1
      have hsm : Eqv o g m e'.src := Eqv.trans ho hs (Eqv.symm ho h6)
      have hex : ∃ a' ∈ g.nodes, a' ≠ m ∧ Eqv o g a' m := by
        by_cases ham : a = m
        · exact ⟨c, hin _ _ hct, fun h => hac (ham.trans h.symm), Eqv.symm ho hs⟩
        · exact ⟨a, hin _ _ ha1, ham, Eqv.trans ho ha2 (Eqv.symm ho hs)⟩
      have := hr.fused m hm hex e'.src (hin _ _ h5) hsm f hf _ (D_out ho h4) (ho.label.symm _ _ (ho.label.trans _ _ _ h3 h1))
      exact Eqv.trans ho this (hF.far _ _ h5 e' h4).2.1
    · have hal' : ∀ a, Mt o g hn M a false → ¬ Eqv o g a c := fun a h1 h2 => hal ⟨a, h1, h2⟩
      have hmc : m = c := by
        cases b with
        | true => exact hF.inv.reps m c hmb hct hs
        | false => exact absurd hs (hal' m hmb)
      subst hmc
      have heo : e ∈ M.out m := by rw [hF.inv.alone m hct hal']; exact he
      refine ⟨(e.label, M.far e), List.mem_map.2 ⟨e, heo, rfl⟩, h1, ?_⟩
      rw [← h2]
      exact (hF.far _ _ hct e he).2.1
  refine ⟨fun m hm => ?_, hedges, fun c hc => ?_⟩
  · have := (hw.reach _).1 hm
    clear hm
    induction this with
    | refl => exact ⟨g.base, (hz.mem _).2 .refl, ho.vertex.refl _⟩
    | tail h1 hb ih =>
      obtain ⟨c, hc, hs⟩ := ih
      obtain ⟨f, hf, rfl⟩ := List.mem_map.1 hb
      obtain ⟨e, he, -, h3⟩ := hedges _ ((hw.reach _).2 h1) f hf c hc hs
      exact ⟨e.2, (hz.mem _).2 (((hz.mem _).1 hc).tail (List.mem_map.2 ⟨e, he, rfl⟩)), h3⟩
  · have hct := hk c hc
    show (ends M c).Pairwise _
    unfold ends
    rw [List.pairwise_map]
    by_cases hal : ∃ a, Mt o g hn M a false ∧ Eqv o g a c
    · obtain ⟨a, ha1, ha2⟩ := hal
      exact (hF.inv.multi c a hct ha1 ha2).imp fun h h' => h h'.1
    · have hal' : ∀ a, Mt o g hn M a false → ¬ Eqv o g a c := fun a h1 h2 => hal ⟨a, h1, h2⟩
      have hsing : ∀ b ∈ g.nodes, Eqv o g c b → b = c := by
        intro b hb hs
        obtain ⟨w, hbw⟩ := hmet b hb
        cases w with
        | true => exact hF.inv.reps b c hbw hct (Eqv.symm ho hs)
        | false => exact absurd (Eqv.symm ho hs) (hal' b hbw)
      rw [hF.inv.alone c hct hal']
      refine List.Pairwise.imp_of_mem ?_ (D_spec (addr := addr) ho c).distinct
      intro e f he hf hne ⟨h1, h2⟩
      refine hne ⟨?_, h1⟩
      have := hr.single c (hin _ _ hct) hsing _ (D_out ho he) _ (D_out ho hf) h1
        (Eqv.trans ho (hF.far _ _ hct e he).2.1 (Eqv.trans ho h2 (Eqv.symm ho (hF.far _ _ hct f hf).2.1)))
      exact congrArg addr this

omit [DecidableEq N] [DecidableEq V] [DecidableEq L] in
theorem Final.fused (hF : Final o g addr hn M) (ho : o.Lawful) (ha : Function.Injective addr) (hw : g.WF) {z : Trav.Job n N Unit}
    (hz : Covers (fun m => (ends M m).map Prod.snd) g.base (Dedup.kept z))
    (hc1 : ∀ m ∈ g.nodes, ∃ c ∈ Dedup.kept z, Eqv o g m c)
    (hc2 : ∀ m ∈ g.nodes, ∀ f ∈ g.out m, ∀ c ∈ Dedup.kept z, Eqv o g m c → ∃ e ∈ ends M c, o.leq e.1 f.1 = true ∧ Eqv o g f.2 e.2)
    {a a' b : N} (haN : a ∈ g.nodes) (ha'N : a' ∈ g.nodes) (hne : a' ≠ a) (ha's : Eqv o g a' a) (hbN : b ∈ g.nodes) (hs : Eqv o g a b)
    {e f : L × N} (he : e ∈ g.out a) (hf : f ∈ g.out b) (hl : o.leq e.1 f.1 = true) : Eqv o g e.2 f.2 := by
  have hk : ∀ c ∈ Dedup.kept z, Mt o g hn M c true := fun c hc => hF.kept ((hz.mem c).1 hc)
  have hin : ∀ m b, Mt o g hn M m b → m ∈ g.nodes := fun m b h => (hw.reach _).2 (hF.inv.reach _ _ h)
  have hmet : ∀ m ∈ g.nodes, ∃ b, Mt o g hn M m b := fun m h => hF.all ho ha ((hw.reach _).1 h)
  obtain ⟨c, hcN, hcs⟩ := hc1 a haN
  have hct := hk c hcN
  obtain ⟨e₁, he₁, h1, h2⟩ := hc2 a haN e he c hcN hcs
  obtain ⟨f₁, hf₁, h3, h4⟩ := hc2 b hbN f hf c hcN (Eqv.trans ho (Eqv.symm ho hs) hcs)
  have hgone : ∃ m, Mt o g hn M m false ∧ Eqv o g m c := by
    by_cases hac : a = c
    · obtain ⟨w, hw'⟩ := hmet a' ha'N
      have h5 := Eqv.trans ho ha's hcs
      cases w with
      | true => exact absurd ((hF.inv.reps a' c hw' hct h5).trans hac.symm) hne
      | false => exact ⟨a', hw', h5⟩
    · obtain ⟨w, hw'⟩ := hmet a haN
      cases w with
      | true => exact absurd (hF.inv.reps a c hw' hct hcs) hac
      | false => exact ⟨a, hw', hcs⟩
  obtain ⟨m, hm1, hm2⟩ := hgone
  have hpw := hF.inv.multi c m hct hm1 hm2
  have hll : o.leq e₁.1 f₁.1 = true := ho.label.trans _ _ _ h1 (ho.label.trans _ _ _ hl (ho.label.symm _ _ h3))
  obtain ⟨e₂, he₂, rfl⟩ := List.mem_map.1 he₁
  obtain ⟨f₂, hf₂, rfl⟩ := List.mem_map.1 hf₁
  have : e₂ = f₂ := by
    by_contra hne'
    have : ∀ x ∈ M.out c, ∀ y ∈ M.out c, x ≠ y → ¬ lq o x y = true := by
      intro x hx y hy hxy
      haveI : Std.Symm fun x y : Edge N L => ¬ lq o x y = true := ⟨fun x y h h' => h ((lq_eq ho).symm _ _ h')⟩
      exact hpw.forall hx hy hxy
    exact this e₂ he₂ f₂ hf₂ hne' hll
  subst this
  exact Eqv.trans ho h2 (Eqv.symm ho h4)

omit [DecidableEq N] [DecidableEq V] [DecidableEq L] in
theorem Final.twice (hF : Final o g addr hn M) (ho : o.Lawful) (ha : Function.Injective addr) (hw : g.WF) {z : Trav.Job n N Unit}
    (hz : Covers (fun m => (ends M m).map Prod.snd) g.base (Dedup.kept z))
    {a : N} (hak : a ∈ Dedup.kept z) (hsing : ∀ b ∈ g.nodes, Eqv o g a b → b = a)
    {e f : L × N} (he : e ∈ g.out a) (hf : f ∈ g.out a) (hl : o.leq e.1 f.1 = true) (hs : Eqv o g e.2 f.2) (hne : e.2 ≠ f.2) :
    ∃ x y c, [(x, c), (y, c)].Sublist (ends M a) ∧ o.leq x e.1 = true ∧ o.leq y e.1 = true := by
  have hk : ∀ c ∈ Dedup.kept z, Mt o g hn M c true := fun c hc => hF.kept ((hz.mem c).1 hc)
  have hin : ∀ m b, Mt o g hn M m b → m ∈ g.nodes := fun m b h => (hw.reach _).2 (hF.inv.reach _ _ h)
  have hct := hk a hak
  have hal : ∀ m, Mt o g hn M m false → ¬ Eqv o g m a := by
    intro m hm h
    have := hsing m (hin _ _ hm) (Eqv.symm ho h)
    subst this
    exact hF.inv.once _ hct hm
  obtain ⟨e₁, he₁, h1, h2⟩ := D_covers (addr := addr) ho ha he
  obtain ⟨f₁, hf₁, h3, h4⟩ := D_covers (addr := addr) ho ha hf
  have hne' : e₁ ≠ f₁ := by rintro rfl; exact hne (h2.symm.trans h4)
  have h5 := hF.far _ _ hct e₁ he₁
  have h6 := hF.far _ _ hct f₁ hf₁
  have hfar : M.far f₁ = M.far e₁ := by
    refine hF.inv.reps _ _ h6.1 h5.1 (Eqv.trans ho (Eqv.symm ho h6.2.1) (Eqv.trans ho ?_ h5.2.1))
    rw [h4, h2]
    exact Eqv.symm ho hs
  have hfl := ho.label.trans _ _ _ h3 (ho.label.symm _ _ hl)
  have hsub : [e₁, f₁].Sublist (D o g addr a) ∨ [f₁, e₁].Sublist (D o g addr a) := by
    obtain ⟨s, t, hst⟩ := List.append_of_mem he₁
    rw [hst] at hf₁ ⊢
    rcases List.mem_append.1 hf₁ with h | h
    · right
      exact (List.singleton_sublist.2 h).append ((List.singleton_sublist.2 (by simp)))
    · left
      rcases List.mem_cons.1 h with h | h
      · exact absurd h.symm hne'
      · exact ((List.singleton_sublist.2 h).cons_cons _).trans (List.sublist_append_right _ _)
  have hout : ends M a = (D o g addr a).map fun e => (e.label, M.far e) := by
    unfold ends; rw [hF.inv.alone a hct hal]
  rw [hout]
  rcases hsub with h | h
  · refine ⟨e₁.label, f₁.label, M.far e₁, ?_, h1, hfl⟩
    have := h.map fun e => (e.label, M.far e)
    simpa [hfar] using this
  · refine ⟨f₁.label, e₁.label, M.far e₁, ?_, hfl, h1⟩
    have := h.map fun e => (e.label, M.far e)
    simpa [hfar] using this

omit [DecidableEq N] [DecidableEq V] [DecidableEq L] in
theorem Final.regular (hF : Final o g addr hn M) (ho : o.Lawful) (ha : Function.Injective addr) (hw : g.WF) {z : Trav.Job n N Unit}
    (hz : Covers (fun m => (ends M m).map Prod.snd) g.base (Dedup.kept z)) (hc : Complete o g (result g M z)) : Regular o g := by
  have hk : ∀ c ∈ Dedup.kept z, Mt o g hn M c true := fun c hc => hF.kept ((hz.mem c).1 hc)
  have hin : ∀ m b, Mt o g hn M m b → m ∈ g.nodes := fun m b h => (hw.reach _).2 (hF.inv.reach _ _ h)
  refine ⟨fun a haN ⟨a', ha'N, hne, ha's⟩ b hbN hs e he f hf hl => hF.fused ho ha hw hz hc.nodes hc.edges haN ha'N hne ha's hbN hs he hf hl,
    fun a haN hsing e he f hf hl hs => ?_⟩
  by_contra hne
  obtain ⟨c, hcN, hcs⟩ := hc.nodes a haN
  obtain rfl := hsing c (hin _ _ (hk c hcN)) hcs
  obtain ⟨x, y, d, h1, h2, h3⟩ := hF.twice ho ha hw hz hcN hsing he hf hl hs hne
  have := (hc.once c hcN).sublist h1
  rw [List.pairwise_pair] at this
  exact this ⟨ho.label.trans _ _ _ h2 (ho.label.symm _ _ h3), ho.vertex.refl _⟩

/-- Edges are neither lost nor duplicated. -/
theorem conserved (ho : o.Lawful) (hw : g.WF) : ∀ x, Bag.Reach (task o g addr hn) ⟨g.base, none⟩ (start g) x →
    ∑ m ∈ g.nodes.toFinset, (x.1.mem.out m : Multiset (Edge N L)) + (x.1.mem.cut : Multiset (Edge N L)) + (x.1.mem.freed : Multiset (Edge N L)) =
      ∑ m ∈ g.nodes.toFinset, (edges g m : Multiset (Edge N L)) := by
  intro x hx
  induction hx with
  | init => simp [start]
  | step hr hs ih =>
    cases hs with
    | env e s m => exact nomatch e
    | handle s p rest =>
      have hf := full_reach ho _ hr
      dsimp only at ih hf ⊢
      have hpn : p.node ∈ g.nodes.toFinset := List.mem_toFinset.2 ((hw.reach _).2 (hf.reaches ho (Multiset.mem_cons_self _ _)))
      by_cases he : s.err (ln o g hn p.node) = 0
      · obtain ⟨h1, h2⟩ := handled (addr := addr) he
        rw [h1]
        have hx := act_outcome (addr := addr) (p := p) ho hf.inv fun hc => by
          rcases hf.first with ⟨-, h, -⟩ | ⟨-, h⟩
          · exact h
          · exact absurd hc (h p (Multiset.mem_cons_self _ _))
        clear h1 h2
        have hsplit : ∀ (f : N → Multiset (Edge N L)) a, a ∈ g.nodes.toFinset → ∑ m ∈ g.nodes.toFinset, f m = f a + ∑ m ∈ g.nodes.toFinset.erase a, f m :=
          fun f a ha => (Finset.add_sum_erase _ _ ha).symm
        generalize act o g addr (ln o g hn p.node) s p = w at hx
        have hgraft : ∀ (M : Mem n N L) (c : N) (e : Edge N L) (d : List (Edge N L)), Mt o g hn s.mem c true → c ≠ p.node → M.out = s.mem.out →
            ∑ m ∈ g.nodes.toFinset, ((graft o (ln o g hn p.node) M p.node c e d).out m : Multiset (Edge N L)) +
              ((graft o (ln o g hn p.node) M p.node c e d).cut : Multiset (Edge N L)) + (s.mem.out p.node : Multiset (Edge N L)) =
            ∑ m ∈ g.nodes.toFinset, (s.mem.out m : Multiset (Edge N L)) + (M.cut : Multiset (Edge N L)) + (d : Multiset (Edge N L)) := by
          intro M c e d hc hcp hM
          have hcn : c ∈ g.nodes.toFinset := List.mem_toFinset.2 ((hw.reach _).2 (hf.inv.reach _ _ hc))
          have hce : c ∈ g.nodes.toFinset.erase p.node := Finset.mem_erase.2 ⟨hcp, hcn⟩
          rw [hsplit _ _ hpn, ← Finset.add_sum_erase _ _ hce, hsplit (fun m => (s.mem.out m : Multiset (Edge N L))) _ hpn,
            ← Finset.add_sum_erase _ (fun m => (s.mem.out m : Multiset (Edge N L))) hce]
          have h1 : (graft o (ln o g hn p.node) M p.node c e d).out p.node = [] := by unfold graft; simp
          have h2 : (graft o (ln o g hn p.node) M p.node c e d).out c = (splitRepeats (lq o) [] (d ++ s.mem.out c)).1 := by
            unfold graft; dsimp only; rw [Function.update_of_ne hcp, Function.update_self, hM]
          have h3 : (graft o (ln o g hn p.node) M p.node c e d).cut = (splitRepeats (lq o) [] (d ++ s.mem.out c)).2 ++ M.cut := by
            unfold graft; dsimp only; rw [hM]
          have h4 : ∑ m ∈ (g.nodes.toFinset.erase p.node).erase c, ((graft o (ln o g hn p.node) M p.node c e d).out m : Multiset (Edge N L)) =
              ∑ m ∈ (g.nodes.toFinset.erase p.node).erase c, (s.mem.out m : Multiset (Edge N L)) := by
            refine Finset.sum_congr rfl fun m hm => ?_
            have h1 := (Finset.mem_erase.1 hm).1
            have h2 := (Finset.mem_erase.1 (Finset.mem_erase.1 hm).2).1
            unfold graft; dsimp only; rw [Function.update_of_ne h2, Function.update_of_ne h1, hM]
          have h5 : ((splitRepeats (lq o) [] (d ++ s.mem.out c)).1 : Multiset (Edge N L)) + ((splitRepeats (lq o) [] (d ++ s.mem.out c)).2 : Multiset (Edge N L)) =
              (d : Multiset (Edge N L)) + (s.mem.out c : Multiset (Edge N L)) := by
            rw [Multiset.coe_add, Multiset.coe_add]
            exact Multiset.coe_eq_coe.2 (splitRepeats_spec (lq_eq ho) (d ++ s.mem.out c) []).1
          rw [h1, h2, h3, h4, ← Multiset.coe_add]
          generalize ((splitRepeats (lq o) [] (d ++ s.mem.out c)).1 : Multiset (Edge N L)) = A at h5 ⊢
          generalize ((splitRepeats (lq o) [] (d ++ s.mem.out c)).2 : Multiset (Edge N L)) = B at h5 ⊢
          generalize ∑ m ∈ (g.nodes.toFinset.erase p.node).erase c, (s.mem.out m : Multiset (Edge N L)) = S
          simp only [Multiset.coe_nil, zero_add]
          calc _ = (A + B) + S + (M.cut : Multiset (Edge N L)) + (s.mem.out p.node : Multiset (Edge N L)) := by abel
            _ = _ := by rw [h5]; abel
        cases hx with
        | error => exact ih
        | known => exact ih
        | store d hd hd' hm hc =>
          rw [← ih, hsplit _ _ hpn, hsplit (fun m => (s.mem.out m : Multiset (Edge N L))) _ hpn]
          have h1 : (stored o g hn s.mem p.node d).out p.node = d.1 := Function.update_self _ _ _
          have h4 : ∑ m ∈ g.nodes.toFinset.erase p.node, ((stored o g hn s.mem p.node d).out m : Multiset (Edge N L)) =
              ∑ m ∈ g.nodes.toFinset.erase p.node, (s.mem.out m : Multiset (Edge N L)) := by
            refine Finset.sum_congr rfl fun m hm => ?_
            unfold stored; dsimp only; rw [Function.update_of_ne (Finset.mem_erase.1 hm).1]
          dsimp only
          rw [h1, h4]
          have h5 : (d.1 : Multiset (Edge N L)) + (d.2 : Multiset (Edge N L)) = (s.mem.out p.node : Multiset (Edge N L)) := by
            rw [Multiset.coe_add]; exact Multiset.coe_eq_coe.2 hd'
          have h6 : ((stored o g hn s.mem p.node d).freed : Multiset (Edge N L)) = (d.2 : Multiset (Edge N L)) + (s.mem.freed : Multiset (Edge N L)) := by
            rw [Multiset.coe_add]; rfl
          have h7 : (stored o g hn s.mem p.node d).cut = s.mem.cut := rfl
          rw [h6, h7, ← h5]
          abel
        | again c e hcar hm hc hs hq =>
          have hcp : c ≠ p.node := by intro h; exact hf.inv.once _ (h ▸ hc) hm
          have := hgraft s.mem c e [] hc hcp rfl
          rw [(hf.inv.gone _ hm).1] at this
          simp only [Multiset.coe_nil, add_zero] at this
          dsimp only
          rw [this]
          exact ih
        | fuse c e hcar d hd hd' hm hc hs hq =>
          have hcp : c ≠ p.node := by intro h; exact hm _ (h ▸ hc)
          have h0 := hgraft { s.mem with freed := d.2 ++ s.mem.freed } c e d.1 hc hcp rfl
          have h5 : (d.1 : Multiset (Edge N L)) + (d.2 : Multiset (Edge N L)) = (s.mem.out p.node : Multiset (Edge N L)) := by
            rw [Multiset.coe_add]; exact Multiset.coe_eq_coe.2 hd'
          dsimp only at h0 ⊢
          have h6 : ((graft o (ln o g hn p.node) { s.mem with freed := d.2 ++ s.mem.freed } p.node c e d.1).freed : Multiset (Edge N L)) =
              (d.2 : Multiset (Edge N L)) + (s.mem.freed : Multiset (Edge N L)) := by
            rw [Multiset.coe_add]; rfl
          rw [h6]
          rw [← h5] at h0
          generalize ∑ m ∈ g.nodes.toFinset, ((graft o (ln o g hn p.node) { s.mem with freed := d.2 ++ s.mem.freed } p.node c e d.1).out m : Multiset (Edge N L)) = S at h0 ⊢
          generalize ((graft o (ln o g hn p.node) { s.mem with freed := d.2 ++ s.mem.freed } p.node c e d.1).cut : Multiset (Edge N L)) = T at h0 ⊢
          generalize ∑ m ∈ g.nodes.toFinset, (s.mem.out m : Multiset (Edge N L)) = U at h0 ih
          rw [← ih]
          have h7 : (d.1 : Multiset (Edge N L)) + (S + T + (d.2 : Multiset (Edge N L))) = (d.1 : Multiset (Edge N L)) + (U + (s.mem.cut : Multiset (Edge N L))) := by
            calc _ = S + T + ((d.1 : Multiset (Edge N L)) + (d.2 : Multiset (Edge N L))) := by abel
              _ = _ := by rw [h0]; abel
          have h8 := add_left_cancel h7
          calc _ = S + T + (d.2 : Multiset (Edge N L)) + (s.mem.freed : Multiset (Edge N L)) := by abel
            _ = _ := by rw [h8]
      · rw [(unhandled (addr := addr) he).1]
        exact ih

end Cru.Dedup
