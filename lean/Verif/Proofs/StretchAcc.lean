import Verif.Spec.StretchAcc
import Verif.Proofs.StretchEnd
import Verif.Proofs.SplitAcc
import Mathlib.Data.Multiset.AddSub

/-! # Storage in stretching -/

namespace Cru.Stretch

open Net Dedup

variable {n : Nat} {N V L P : Type}
variable {o : Orders V L} {ask : N → L × N → Answer V L} {g : Gr N V L} {addr : Nd N V L → Nat} {limit : Nat} {hn : 0 < n} {M : Mem n N V L}

/-- The edges that a node has, has got, or had. -/
def alls (ask : N → L × N → Answer V L) (g : Gr N V L) : Nd N V L → List (Edge N V L)
  | .old m => deleted ask g m ++ gens ask g (.old m)
  | c => gens ask g c

theorem alls_new {c : Nd N V L} (h : c.isNew = true) : alls ask g c = gens ask g c := by cases c with
  | old => cases h
  | new => rfl

theorem mem_stored {c : Nd N V L} : c ∈ stored M ↔ ∃ i, ∃ a ∈ M.tab i, a.node = c := by
  unfold stored
  rw [Multiset.mem_sum]
  simp

theorem Inv.mem_stored (hi : Inv o ask g hn M) {c : Nd N V L} : c ∈ stored M ↔ St o g hn M c := by
  rw [Stretch.mem_stored]
  constructor
  · rintro ⟨i, a, h1, rfl⟩
    exact ⟨a, by rw [hi.lane i a h1]; exact h1, rfl⟩
  · rintro ⟨a, h1, rfl⟩
    exact ⟨_, a, h1, rfl⟩

theorem Inv.nodup_stored (hi : Inv o ask g hn M) (ho : o.Lawful) : (stored M).Nodup := by
  classical
  rw [Multiset.nodup_iff_count_le_one]
  intro c
  unfold stored
  rw [Multiset.count_sum']
  have h0 : ∀ i, i ≠ ln o g hn c → (((M.tab i).map Entry.node : List (Nd N V L)) : Multiset (Nd N V L)).count c = 0 := by
    intro i hne
    refine Multiset.count_eq_zero_of_notMem fun h => ?_
    obtain ⟨a, h1, rfl⟩ := List.mem_map.1 (Multiset.mem_coe.1 h)
    exact hne (hi.lane i a h1).symm
  rw [Finset.sum_eq_single (ln o g hn c) (fun i _ h => h0 i h) (by simp)]
  refine Multiset.nodup_iff_count_le_one.1 ?_ c
  refine Multiset.coe_nodup.2 ((hi.reps _).map _ ?_)
  intro a b h h'
  exact h (by rw [h']; exact Eqv.refl ho _)

/-- All edges of nodes that have been stored are in the lists of nodes that are, or have been freed. -/
structure Ledger (ask : N → L × N → Answer V L) (g : Gr N V L) (M : Mem n N V L) : Prop where
  edges : (M.freed : Multiset (Edge N V L)) + (stored M).bind (fun c => (M.out c : Multiset (Edge N V L))) =
    (stored M + (M.dead : Multiset (Nd N V L))).bind fun c => (alls ask g c : Multiset (Edge N V L))
  dead : M.dead.Nodup

theorem ledger_start : Ledger ask g (start g : Job n N V L).mem where
  edges := by simp [stored, start]
  dead := List.nodup_nil

section
variable [DecidableEq N] [DecidableEq V] [DecidableEq L]

theorem dedup_perm (ho : o.Lawful) (far : Edge N V L → Nat) (es : List (Edge N V L)) :
    let d := deduplicatedEdges far (lq o) es
    (d.1 : Multiset (Edge N V L)) + d.2 = es := by
  have h := C27_deduplicated_edges (lq_eq ho) far es
  exact Multiset.coe_eq_coe.2 h.perm

theorem stored_push (c : Nd N V L) (x : Option (Edge N V L)) : stored (push o g hn M c x) = c ::ₘ stored M := by
  unfold stored push
  dsimp only
  obtain ⟨r, h1, h2⟩ := SplitAcc.sum_lane
    (fun i => (((Function.update M.tab (ln o g hn c) (M.tab (ln o g hn c) ++ [⟨c, [x]⟩]) i).map Entry.node : List (Nd N V L)) : Multiset (Nd N V L)))
    (fun i => (((M.tab i).map Entry.node : List (Nd N V L)) : Multiset (Nd N V L))) (ln o g hn c) (fun j hj => by rw [Function.update_of_ne hj])
  rw [h1, h2]
  rw [Function.update_self, List.map_append, ← Multiset.coe_add, add_comm (Multiset.ofList (List.map _ (M.tab _))), add_assoc]
  rfl

theorem bind_congr_out {s : Multiset (Nd N V L)} {f f' : Nd N V L → List (Edge N V L)} (h : ∀ c ∈ s, f c = f' c) :
    s.bind (fun c => (f c : Multiset (Edge N V L))) = s.bind fun c => (f' c : Multiset (Edge N V L)) :=
  Multiset.bind_congr fun c hc => by rw [h c hc]

theorem ledger_new (hi : Inv o ask g hn M) (hl : Ledger ask g M) {c : Nd N V L} {x : Option (Edge N V L)} (hn' : c.isNew = true) (hd : ¬ Done o g hn M c) :
    Ledger ask g (push o g hn M c x) where
  edges := by
    rw [stored_push, Multiset.cons_add, Multiset.cons_bind, Multiset.cons_bind, alls_new hn']
    show (M.freed : Multiset (Edge N V L)) + ((M.out c : Multiset (Edge N V L)) + (stored M).bind fun c => (M.out c : Multiset (Edge N V L))) =
      (gens ask g c : Multiset (Edge N V L)) + (stored M + (M.dead : Multiset (Nd N V L))).bind fun c => (alls ask g c : Multiset (Edge N V L))
    rw [hi.fresh c hn' hd, ← hl.edges]
    exact add_left_comm _ _ _
  dead := hl.dead

theorem stored_scatter (m : N) : stored (scatter ask g M m) = stored M := rfl

theorem scatter_edges (hl : Ledger ask g M) {m : N} (hm : (.old m : Nd N V L) ∉ stored M) :
    ((scatter ask g M m).freed : Multiset (Edge N V L)) + ((scatter ask g M m).out (.old m) : Multiset (Edge N V L)) +
      (stored M).bind (fun c => ((scatter ask g M m).out c : Multiset (Edge N V L))) =
    (alls ask g (.old m) : Multiset (Edge N V L)) + (stored M + (M.dead : Multiset (Nd N V L))).bind fun c => (alls ask g c : Multiset (Edge N V L)) := by
  rw [← hl.edges, bind_congr_out (f := (scatter ask g M m).out) (f' := M.out)]
  · show ((deleted ask g m ++ M.freed : List (Edge N V L)) : Multiset (Edge N V L)) +
      ((Function.update M.out (.old m) (gens ask g (.old m))) (.old m) : Multiset (Edge N V L)) + _ = ((deleted ask g m ++ gens ask g (.old m) : List (Edge N V L)) : Multiset (Edge N V L)) + _
    rw [Function.update_self, ← Multiset.coe_add, ← Multiset.coe_add]
    abel
  · intro c hc
    exact Function.update_of_ne (by rintro rfl; exact hm hc) _ _

theorem ledger_old (hi : Inv o ask g hn M) (hl : Ledger ask g M) {m : N} {x : Option (Edge N V L)} (hm : M.mark m = false) :
    Ledger ask g (push o g hn (scatter ask g M m) (.old m) x) where
  edges := by
    have hms : (.old m : Nd N V L) ∉ stored M := fun h => by rw [hi.mem_stored, ← hi.mark, hm] at h; cases h
    have := scatter_edges hl hms
    rw [stored_push, stored_scatter, Multiset.cons_add, Multiset.cons_bind, Multiset.cons_bind, ← add_assoc]
    exact this
  dead := hl.dead

theorem stored_graft (i : Fin n) {m c : Nd N V L} {e : Edge N V L} : stored (graft o addr i M m c e) = stored M := by
  unfold stored graft
  dsimp only
  refine Finset.sum_congr rfl fun j _ => ?_
  by_cases h : j = i
  · subst h
    rw [Function.update_self, List.map_map]
    congr 1
    refine List.map_congr_left fun a _ => ?_
    dsimp only [Function.comp]
    split_ifs <;> rfl
  · rw [Function.update_of_ne h]

theorem ledger_graft (ho : o.Lawful) (hi : Inv o ask g hn M) (hl : Ledger ask g M) {m c : Nd N V L} {e : Edge N V L} (hm : m.isNew = true)
    (hnd : ¬ Done o g hn M m) (hc : St o g hn M c) : Ledger ask g (graft o addr (ln o g hn m) M m c e) where
  edges := by
    have hp := dedup_perm ho (fun a => addr (M.far a)) (M.out m ++ M.out c)
    rw [stored_graft]
    have hms : m ∉ stored M := fun h => hnd (.inl (hi.mem_stored.1 h))
    have hnds := hi.nodup_stored ho
    have hE := hl.edges
    obtain ⟨s, hs⟩ := Multiset.exists_cons_of_mem (hi.mem_stored.2 hc)
    rw [hs] at hE hms hnds ⊢
    have hcs := (Multiset.nodup_cons.1 hnds).1
    have hcm : c ≠ m := fun h => hms (h ▸ Multiset.mem_cons_self _ _)
    show ((_ ++ M.freed : List (Edge N V L)) : Multiset (Edge N V L)) + _ = (_ + ((m :: M.dead : List (Nd N V L)) : Multiset (Nd N V L))).bind _
    rw [Multiset.cons_bind, bind_congr_out (s := s) (f' := M.out)]
    swap
    · intro d hd
      show Function.update (Function.update M.out c _) m [] d = M.out d
      rw [Function.update_of_ne (by rintro rfl; exact hms (Multiset.mem_cons_of_mem hd)), Function.update_of_ne (by rintro rfl; exact hcs hd)]
    rw [show (graft o addr (ln o g hn m) M m c e).out c = (deduplicatedEdges (fun a => addr (M.far a)) (lq o) (M.out m ++ M.out c)).1 by
      show Function.update (Function.update M.out c _) m [] c = _
      rw [Function.update_of_ne hcm, Function.update_self]]
    rw [← Multiset.cons_coe, Multiset.add_cons, Multiset.cons_bind, ← hE, Multiset.cons_bind, alls_new hm, ← hi.fresh m hm hnd, ← Multiset.coe_add]
    dsimp only at hp
    rw [← Multiset.coe_add] at hp
    generalize deduplicatedEdges (fun a => addr (M.far a)) (lq o) (M.out m ++ M.out c) = d at hp ⊢
    calc _ = ((d.1 : Multiset (Edge N V L)) + d.2) + (M.freed + s.bind fun c => (M.out c : Multiset (Edge N V L))) := by abel
      _ = _ := by rw [hp]; abel
  dead := List.nodup_cons.2 ⟨fun h => hnd (.inr h), hl.dead⟩

theorem map_replace {c m : Nd N V L} {y : Entry N V L → Entry N V L} (hy : ∀ a, (y a).node = m) {l : List (Entry N V L)} (hl : l.Pairwise fun a b => a.node ≠ b.node)
    {a : Entry N V L} (ha : a ∈ l) (hac : a.node = c) :
    c ::ₘ ((((l.map fun a => if a.node = c then y a else a).map Entry.node) : List (Nd N V L)) : Multiset (Nd N V L)) =
      m ::ₘ ((l.map Entry.node : List (Nd N V L)) : Multiset (Nd N V L)) := by
  induction l with
  | nil => cases ha
  | cons b l ih =>
    rw [List.pairwise_cons] at hl
    rw [List.map_cons, List.map_cons, List.map_cons]
    rcases List.mem_cons.1 ha with rfl | ha
    · have : (l.map fun a => if a.node = c then y a else a) = l := by
        conv_rhs => rw [← List.map_id l]
        refine List.map_congr_left fun b hb => if_neg fun h => hl.1 b hb (hac.trans h.symm)
      rw [this, if_pos hac, hy, hac, ← Multiset.cons_coe, ← Multiset.cons_coe, Multiset.cons_swap]
    · have hb : b.node ≠ c := fun h => hl.1 a ha (h.trans hac.symm)
      rw [if_neg hb, ← Multiset.cons_coe, ← Multiset.cons_coe, Multiset.cons_swap, ih hl.2 ha, Multiset.cons_swap]

theorem stored_over (ho : o.Lawful) (hi : Inv o ask g hn M) {m c : Nd N V L} {es : List (Edge N V L)} {x : Option (Edge N V L)} {M' : Mem n N V L} (hM : M'.tab = M.tab)
    (hln : ln o g hn c = ln o g hn m) (hc : St o g hn M c) : c ::ₘ stored (overwrite o addr (ln o g hn m) M' m c es x) = m ::ₘ stored M := by
  unfold stored overwrite
  dsimp only
  rw [hM]
  obtain ⟨a, ha1, ha2⟩ := hc
  obtain ⟨r, h1, h2⟩ := SplitAcc.sum_lane
    (fun i => (((Function.update M.tab (ln o g hn m) ((M.tab (ln o g hn m)).map fun a => if a.node = c then ⟨m, x :: a.carriers⟩ else a) i).map Entry.node : List (Nd N V L)) : Multiset (Nd N V L)))
    (fun i => (((M.tab i).map Entry.node : List (Nd N V L)) : Multiset (Nd N V L))) (ln o g hn m) (fun j hj => by rw [Function.update_of_ne hj])
  rw [h1, h2, Function.update_self, ← Multiset.cons_add, ← Multiset.cons_add]
  congr 1
  refine map_replace (y := fun a => ⟨m, x :: a.carriers⟩) (fun _ => rfl) ?_ (hln ▸ ha1) ha2
  exact (hi.reps _).imp fun {a b} h h' => h (by rw [h']; exact Eqv.refl ho _)

theorem ledger_over (ho : o.Lawful) (hi : Inv o ask g hn M) (hl : Ledger ask g M) {m : N} {c : Nd N V L} (hm : M.mark m = false)
    (hc : St o g hn M c) (hcn : c.isNew = true) (hq : Eqv o g (.old m) c) (es : List (Edge N V L)) (x : Option (Edge N V L)) :
    Ledger ask g (overwrite o addr (ln o g hn (.old m)) (scatter ask g M m) (.old m) c es x) where
  edges := by
    have hms : (.old m : Nd N V L) ∉ stored M := fun h => by rw [hi.mem_stored, ← hi.mark, hm] at h; cases h
    have hso := stored_over (addr := addr) (es := es) (x := x) ho hi (M' := scatter ask g M m) rfl (Eqv.ln ho hq).symm hc
    have hE := scatter_edges hl hms
    have hnds := hi.nodup_stored ho
    have hp := dedup_perm ho (fun a => addr ((fun a => if a ∈ es then (.old m : Nd N V L) else (scatter ask g M m).far a) a)) ((scatter ask g M m).out c ++ (scatter ask g M m).out (.old m))
    obtain ⟨s, hs⟩ := Multiset.exists_cons_of_mem (hi.mem_stored.2 hc)
    rw [hs, Multiset.cons_swap, Multiset.cons_inj_right] at hso
    rw [hso]
    rw [hs] at hE hms hnds
    have hcs := (Multiset.nodup_cons.1 hnds).1
    have hcm : c ≠ .old m := by rintro rfl; cases hcn
    show ((_ ++ (scatter ask g M m).freed : List (Edge N V L)) : Multiset (Edge N V L)) + _ = (_ + ((c :: M.dead : List (Nd N V L)) : Multiset (Nd N V L))).bind _
    rw [Multiset.cons_bind, bind_congr_out (s := s) (f' := (scatter ask g M m).out)]
    swap
    · intro d hd
      show Function.update (Function.update (scatter ask g M m).out (.old m) _) c [] d = (scatter ask g M m).out d
      rw [Function.update_of_ne (by rintro rfl; exact hcs hd), Function.update_of_ne (by rintro rfl; exact hms (Multiset.mem_cons_of_mem hd))]
    rw [show (overwrite o addr (ln o g hn (.old m)) (scatter ask g M m) (.old m) c es x).out (.old m) =
        (deduplicatedEdges (fun a => addr ((fun a => if a ∈ es then (.old m : Nd N V L) else (scatter ask g M m).far a) a)) (lq o)
          ((scatter ask g M m).out c ++ (scatter ask g M m).out (.old m))).1 by
      show Function.update (Function.update (scatter ask g M m).out (.old m) _) c [] (.old m) = _
      rw [Function.update_of_ne (Ne.symm hcm), Function.update_self]]
    rw [Multiset.cons_bind, Multiset.cons_add, Multiset.cons_bind] at hE
    rw [← Multiset.cons_coe, Multiset.add_cons, Multiset.cons_add, Multiset.cons_bind, Multiset.cons_bind]
    dsimp only at hp
    rw [← Multiset.coe_add] at hp
    rw [← Multiset.coe_add, add_left_comm (alls ask g c : Multiset (Edge N V L)), ← hE]
    have key : ∀ x y f z p q : Multiset (Edge N V L), x + y = p + q → y + f + (x + z) = f + q + (p + z) := fun x y f z p q h => by
      calc _ = (x + y) + (f + z) := by abel
        _ = _ := by rw [h]; abel
    exact key _ _ _ _ _ _ hp
  dead := List.nodup_cons.2 ⟨fun h => (hi.dead c h).2.1 hc, hl.dead⟩

theorem ledger_does (ho : o.Lawful) {s t : Job n N V L} {p : Pkt N V L} {qs : List (Pkt N V L)} (hi : Inv o ask g hn s.mem)
    (hd : Does o ask g addr limit hn s p (t, qs)) (hl : Ledger ask g s.mem) : Ledger ask g t.mem := by
  cases hd with
  | error => exact hl
  | failed => exact hl
  | known => exact hl
  | new e hp he het hre hmk hnd hc =>
    rw [grown_mem]
    exact ledger_new hi hl (het ▸ he.isNew) hnd
  | graft e hp he het hre hmk hnd c hc hq => exact ledger_graft ho hi hl (het ▸ he.isNew) hnd hc
  | old m hp hr hm hc =>
    rw [grown_mem, hp]
    exact ledger_old hi hl hm
  | over m hp hr hm c hcn hc hq =>
    rw [hp] at hq ⊢
    exact ledger_over ho hi hl hm hc hcn hq _ _

theorem ledger_reach (ho : o.Lawful) (ha : Function.Injective addr) (hw : g.WF) (hdi : Distinct o g) :
    ∀ x, Bag.Reach (task o ask g addr limit hn) (initial g) (start g) x → Ledger ask g x.1.mem := by
  intro x hx
  induction hx with
  | init => exact ledger_start
  | step hr hs ih =>
    have hf := full_reach ho ha hw hdi _ hr
    cases hs with
    | env e s m => exact nomatch e
    | handle s p rest =>
      dsimp only at ih hf ⊢
      by_cases he : s.err (ln o g hn p.node) = 0
      · rw [(handled (ask := ask) (addr := addr) (limit := limit) he).1]
        exact ledger_does ho hf.inv (act_does ho hw hdi hf.inv (hf.fly p (Multiset.mem_cons_self _ _)) hf.changed) ih
      · rw [(unhandled (ask := ask) (addr := addr) (limit := limit) he).1]
        exact ih

theorem runs_ledger (ho : o.Lawful) (ha : Function.Injective addr) (hw : g.WF) (hdi : Distinct o g) {y : Job n N V L} (hy : Runs o ask g addr limit hn y) :
    Ledger ask g y.mem := by
  obtain ⟨s, h1, h2, rfl⟩ := hy
  exact ledger_reach ho ha hw hdi _ (Rover.done_bag hn h1 h2)

end

/-- The nodes made for requests about the edges of a node. -/
def news (ask : N → L × N → Answer V L) (g : Gr N V L) (m : N) : List (Nd N V L) := (antes ask g m).map Edge.tgt

theorem mem_news {m : N} {c : Nd N V L} : c ∈ news ask g m ↔ c.isNew = true ∧ Real ask g c ∧ c.root = m := by
  unfold news
  rw [List.mem_map]
  constructor
  · rintro ⟨e, he, rfl⟩
    obtain ⟨h1, h2, h3⟩ := mem_antes.1 he
    refine ⟨h1.isNew, h3, ?_⟩
    rw [h1.src] at h2
    cases h2
    rfl
  · rintro ⟨h1, h2, rfl⟩
    cases c with
    | old => cases h1
    | new m pos k r t => exact ⟨_, mem_antes.2 ⟨⟨m, pos, k, r, t, rfl⟩, rfl, h2⟩, rfl⟩

theorem news_nodup (m : N) : (news ask g m).Nodup :=
  List.Nodup.map_on (fun _ hx _ hy h => (mem_antes.1 hx).1.eq (mem_antes.1 hy).1 h) (antes_nodup m)

/-- Every node of the graph and every node requested is stored in the end or was discarded. -/
theorem Final.all_nodes (hF : Final o ask g limit hn M) (hl : Ledger ask g M) (ho : o.Lawful) (hw : g.WF) :
    stored M + (M.dead : Multiset (Nd N V L)) = (g.nodes : Multiset N).bind fun m => .old m ::ₘ (news ask g m : Multiset (Nd N V L)) := by
  refine (Multiset.Nodup.ext ?_ ?_).2 fun c => ?_
  · refine Multiset.nodup_add.2 ⟨hF.inv.nodup_stored ho, Multiset.coe_nodup.2 hl.dead, ?_⟩
    refine Multiset.disjoint_left.2 fun {c} h1 h2 => ?_
    exact (hF.inv.dead c (Multiset.mem_coe.1 h2)).2.1 (hF.inv.mem_stored.1 h1)
  · refine Multiset.nodup_bind.2 ⟨fun m _ => ?_, ?_⟩
    · refine Multiset.nodup_cons.2 ⟨fun h => ?_, Multiset.coe_nodup.2 (news_nodup m)⟩
      have := (mem_news.1 (Multiset.mem_coe.1 h)).1
      cases this
    · refine ⟨g.nodes, rfl, ?_⟩
      · refine hw.nodup.imp fun {a b} hab => Multiset.disjoint_left.2 fun {c} h1 h2 => hab ?_
        have key : ∀ m, c ∈ (.old m : Nd N V L) ::ₘ (news ask g m : Multiset (Nd N V L)) → c.root = m := by
          intro m h
          rcases Multiset.mem_cons.1 h with rfl | h
          · rfl
          · exact (mem_news.1 (Multiset.mem_coe.1 h)).2.2
        exact (key a h1).symm.trans (key b h2)
  · rw [Multiset.mem_add, hF.inv.mem_stored, Multiset.mem_coe, Multiset.mem_bind]
    constructor
    · intro h
      obtain ⟨h1, h2⟩ := hF.reals h
      refine ⟨c.root, Multiset.mem_coe.2 ((hw.reach _).2 h2), ?_⟩
      cases c with
      | old m => exact Multiset.mem_cons_self _ _
      | new m pos k r t => exact Multiset.mem_cons_of_mem (Multiset.mem_coe.2 (mem_news.2 ⟨rfl, h1, rfl⟩))
    · rintro ⟨m, h1, h2⟩
      have h3 := (hw.reach _).1 (Multiset.mem_coe.1 h1)
      rcases Multiset.mem_cons.1 h2 with rfl | h2
      · exact hF.made _ trivial h3
      · obtain ⟨-, h4, rfl⟩ := mem_news.1 (Multiset.mem_coe.1 h2)
        exact hF.made _ h4 h3

/-- The storage of the nodes in their original condition. -/
def origin (ask : N → L × N → Answer V L) (g : Gr N V L) (c : Nd N V L) : Multiset (V ⊕ L) :=
  .inl (vertex g c) ::ₘ ((alls ask g c : Multiset (Edge N V L)).map fun e => .inr e.label)

theorem filter_labels (m : N) : ((deleted ask g m ++ kept ask g m).map Edge.label).Perm ((g.out m).map Prod.fst) := by
  unfold deleted kept
  rw [← List.map_append, List.map_map]
  have : ∀ (l : List (L × N)) (k : Nat), ((((l.zipIdx k).filter fun e => (ask m e.1).delete) ++ (l.zipIdx k).filter fun e => !(ask m e.1).delete).map
      (Edge.label ∘ (oldEdge m : _ → Edge N V L))).Perm (l.map Prod.fst) := by
    intro l k
    refine ((List.filter_append_perm (fun e : (L × N) × Nat => (ask m e.1).delete) (l.zipIdx k)).map _).trans ?_
    induction l generalizing k with
    | nil => exact .nil
    | cons a l ih =>
      rw [List.zipIdx_cons, List.map_cons, List.map_cons]
      exact (ih _).cons _
  exact this _ _

theorem origin_node (m : N) : origin ask g (.old m) + (news ask g m : Multiset (Nd N V L)).bind (origin ask g) =
    (.inl (g.vertex m) ::ₘ (((g.out m).map fun e => .inr e.1 : List (V ⊕ L)) : Multiset (V ⊕ L))) +
      (((g.out m : List (L × N)) : Multiset (L × N)).bind fun e => (((ask m e).reqs : List (Req V L)) : Multiset (Req V L)).bind fun r =>
        {.inr r.ante, .inl r.vertex, .inr r.post}) := by
  have h1 : origin ask g (.old m) = (.inl (g.vertex m) ::ₘ (((g.out m).map fun e => .inr e.1 : List (V ⊕ L)) : Multiset (V ⊕ L))) +
      ((antes ask g m : Multiset (Edge N V L)).map fun e => .inr e.label) := by
    unfold origin
    rw [Multiset.cons_add]
    congr 1
    show Multiset.map _ ((deleted ask g m ++ (kept ask g m ++ antes ask g m) : List (Edge N V L)) : Multiset (Edge N V L)) = _
    rw [← List.append_assoc, ← Multiset.coe_add, Multiset.map_add]
    congr 1
    rw [Multiset.map_coe, Multiset.coe_eq_coe]
    have := (filter_labels (ask := ask) (g := g) m).map (Sum.inr : L → V ⊕ L)
    rw [List.map_map, List.map_map] at this
    exact this
  have h2 : (news ask g m : Multiset (Nd N V L)).bind (origin ask g) = (antes ask g m : Multiset (Edge N V L)).bind fun e => origin ask g e.tgt := by
    unfold news
    rw [← Multiset.map_coe, Multiset.bind_map]
  rw [h1, h2, add_assoc]
  congr 1
  rw [← Multiset.bind_singleton, ← Multiset.bind_add]
  unfold antes
  have h3 : ∀ (e : (L × N) × Nat) (rs : List (Req V L)) (k : Nat), (((rs.zipIdx k).map (anteEdge m e) : List (Edge N V L)) : Multiset (Edge N V L)).bind
      (fun e => {.inr e.label} + origin ask g e.tgt) = (rs : Multiset (Req V L)).bind fun r => {.inr r.ante, .inl r.vertex, .inr r.post} := by
    intro e rs
    induction rs with
    | nil => intro k; rfl
    | cons r rs ih =>
      intro k
      rw [List.zipIdx_cons, List.map_cons, ← Multiset.cons_coe, ← Multiset.cons_coe, Multiset.cons_bind, Multiset.cons_bind, ih]
      rfl
  have h4 : ∀ (l : List (L × N)) (k : Nat), (((l.zipIdx k).flatMap fun e => (ask m e.1).reqs.zipIdx.map (anteEdge m e) : List (Edge N V L)) : Multiset (Edge N V L)).bind
      (fun e => {.inr e.label} + origin ask g e.tgt) = (l : Multiset (L × N)).bind fun e => (((ask m e).reqs : List (Req V L)) : Multiset (Req V L)).bind fun r =>
        {.inr r.ante, .inl r.vertex, .inr r.post} := by
    intro l
    induction l with
    | nil => intro k; rfl
    | cons a l ih =>
      intro k
      rw [List.zipIdx_cons, List.flatMap_cons, ← Multiset.coe_add, Multiset.add_bind, ih, h3, ← Multiset.cons_coe, Multiset.cons_bind]
  rw [← h4 _ 0]
  congr 1
  exact Multiset.coe_eq_coe.2 (List.Perm.flatMap_right _ (List.reverse_perm _))

/-- What's stored or freed in a pass is what was in the graph and what was passed to `cru_stretch`. -/
theorem Final.account (hF : Final o ask g limit hn M) (hl : Ledger ask g M) (ho : o.Lawful) (hw : g.WF) :
    contents g + asked ask g = storage g M (stored M) + spent g M := by
  have h1 : storage g M (stored M) + spent g M = (stored M + (M.dead : Multiset (Nd N V L))).bind (origin ask g) := by
    have h2 : storage g M (stored M) = (stored M).map (fun c => .inl (vertex g c)) +
        ((stored M).bind fun c => (M.out c : Multiset (Edge N V L))).map fun e => .inr e.label := by
      unfold storage
      rw [Multiset.map_bind, ← Multiset.bind_singleton, ← Multiset.bind_add]
      rfl
    have h3 : (stored M + (M.dead : Multiset (Nd N V L))).bind (origin ask g) = (stored M + (M.dead : Multiset (Nd N V L))).map (fun c => .inl (vertex g c)) +
        ((stored M + (M.dead : Multiset (Nd N V L))).bind fun c => (alls ask g c : Multiset (Edge N V L))).map fun e => .inr e.label := by
      rw [Multiset.map_bind, ← Multiset.bind_singleton, ← Multiset.bind_add]
      rfl
    rw [h2, h3, ← hl.edges, Multiset.map_add, Multiset.map_add]
    unfold spent
    rw [← Multiset.map_coe, ← Multiset.map_coe]
    abel
  rw [h1, hF.all_nodes hl ho hw, Multiset.bind_assoc]
  unfold contents asked
  rw [← Multiset.bind_add]
  refine Multiset.bind_congr fun m _ => ?_
  rw [Multiset.cons_bind, origin_node]

theorem contents_result (ms : List (Nd N V L)) : contents (result g M ms) = storage g M ms := by
  unfold contents storage result ends
  refine Multiset.bind_congr fun c _ => ?_
  dsimp only
  rw [List.map_map]
  rfl

section
variable [DecidableEq N] [DecidableEq V] [DecidableEq L]

theorem left_add {ms : List (Nd N V L)} (hd : ms.Nodup) (hs : ∀ c ∈ ms, c ∈ stored M) (hS : (stored M).Nodup) :
    storage g M (left M ms) + storage g M ms = storage g M (stored M) := by
  unfold storage left
  rw [← Multiset.add_bind]
  congr 1
  conv_rhs => rw [← Multiset.filter_add_not (p := fun c => c ∉ ms) (stored M)]
  congr 1
  refine (Multiset.Nodup.ext (Multiset.coe_nodup.2 hd) (hS.filter _)).2 fun c => ?_
  rw [Multiset.mem_coe, Multiset.mem_filter, not_not]
  exact ⟨fun h => ⟨hs c h, h⟩, fun h => h.2⟩

/-- The nodes received by the pruning task, if it's killed or not. -/
theorem prunes_kept {z : Trav.Job n (Nd N V L) Unit} (h : Prunes o g hn M z) :
    (Dedup.kept z).Nodup ∧ ∀ c ∈ Dedup.kept z, Reaches (fun m => (ends M m).map Prod.snd) (.old g.base) c := by
  obtain ⟨s, h1, h2, rfl⟩ := h
  have hb := Rover.done_bag hn h1 h2
  refine ⟨Trav.nodup _ hb, ?_⟩
  have := Trav.induct (motive := fun seen _ _ => ∀ i, ∀ c ∈ seen i, Reaches (fun m => (ends M m).map Prod.snd) (.old g.base) c)
    (fun _ _ h => by cases h) (fun seen err mem m h hr _ _ i c hc => by
      by_cases hi : i = Build.lane hn (o.hash (vertex g m))
      · subst hi
        rw [Function.update_self] at hc
        rcases List.mem_append.1 hc with hc | hc
        · exact h _ c hc
        · rw [List.mem_singleton.1 hc]; exact hr
      · rw [Function.update_of_ne hi] at hc
        exact h i c hc) _ hb
  intro c hc
  obtain ⟨i, _, hi⟩ := List.mem_flatMap.1 hc
  exact this i c hi

end

theorem alls_src {c : Nd N V L} {e : Edge N V L} (h : e ∈ alls ask g c) : e.src = c := by
  cases c with
  | old m =>
    rcases List.mem_append.1 h with h | h
    · obtain ⟨f, -, rfl⟩ := List.mem_map.1 h; rfl
    · exact gens_src h
  | new m pos k r t => exact gens_src (ask := ask) (g := g) h

theorem alls_nodup (c : Nd N V L) : (alls ask g c).Nodup := by
  cases c with
  | new m pos k r t => exact gens_nodup (ask := ask) (g := g) (.new m pos k r t)
  | old m =>
    refine List.nodup_append.2 ⟨?_, gens_nodup _, fun a ha b hb hab => ?_⟩
    · refine List.Nodup.map_on ?_ ((zipIdx_nodup _).filter _)
      rintro ⟨⟨a1, a2⟩, a3⟩ - ⟨⟨b1, b2⟩, b3⟩ - h
      simp only [oldEdge, Edge.mk.injEq, Kind.old.injEq, Nd.old.injEq, true_and] at h
      obtain ⟨rfl, rfl, rfl⟩ := h
      rfl
    · subst hab
      obtain ⟨⟨f, i⟩, h1, rfl⟩ := List.mem_map.1 ha
      obtain ⟨h1, h2⟩ := List.mem_filter.1 h1
      have h1 := List.mem_zipIdx_iff_getElem?.1 h1
      rcases List.mem_append.1 hb with h | h
      · obtain ⟨pos, f', h3, h4, h5⟩ := mem_kept.1 h
        simp only [oldEdge, Edge.mk.injEq, Kind.old.injEq, Nd.old.injEq, true_and] at h5
        obtain ⟨rfl, -⟩ := h5
        dsimp only at h1 h2
        rw [h1] at h3
        cases h3
        rw [h4] at h2
        cases h2
      · have := (mem_antes.1 h).1.isNew
        cases this

theorem Ledger.nodup (hl : Ledger ask g M) (hi : Inv o ask g hn M) (ho : o.Lawful) :
    (stored M + (M.dead : Multiset (Nd N V L))).Nodup ∧
    ((M.freed : Multiset (Edge N V L)) + (stored M).bind fun c => (M.out c : Multiset (Edge N V L))).Nodup := by
  have h1 : (stored M + (M.dead : Multiset (Nd N V L))).Nodup := by
    refine Multiset.nodup_add.2 ⟨hi.nodup_stored ho, Multiset.coe_nodup.2 hl.dead, ?_⟩
    refine Multiset.disjoint_left.2 fun {c} h1 h2 => ?_
    exact (hi.dead c (Multiset.mem_coe.1 h2)).2.1 (hi.mem_stored.1 h1)
  refine ⟨h1, ?_⟩
  rw [hl.edges]
  generalize stored M + (M.dead : Multiset (Nd N V L)) = s at h1
  refine Multiset.nodup_bind.2 ⟨fun c _ => Multiset.coe_nodup.2 (alls_nodup c), ?_⟩
  induction s using Quotient.inductionOn with
  | h l =>
    refine ⟨l, rfl, (Multiset.coe_nodup.1 h1).imp fun {a b} hab => Multiset.disjoint_left.2 fun {e} h2 h3 => hab ?_⟩
    exact (alls_src (Multiset.mem_coe.1 h2)).symm.trans (alls_src (Multiset.mem_coe.1 h3))

theorem mem_storage {ms : Multiset (Nd N V L)} {c : Nd N V L} (h : c ∈ ms) : .inl (vertex g c) ∈ storage g M ms :=
  Multiset.mem_bind.2 ⟨c, h, Multiset.mem_cons_self _ _⟩

end Cru.Stretch
