import Verif.Spec.BuildAcc
import Verif.Proofs.DedupAcc
import Verif.Proofs.SpawnAcc

/-! # Accounting for building and spreading -/

namespace Cru.BuildAcc

open Net Fold
open MergeAcc (Bal)
open Request (Env Edge Link alloc freeEdges connectCalls freeEdges_bal alloc_bal destroy_frame connectCalls_bal)
open SpawnAcc (Node Verdict freeNodes held allHeld heldLabels freeNodes_bal)
open SplitAcc (passed unsent passed_bal)
open DedupAcc (dedup)

variable {n : Nat} {V : Type} {c : Env} {o : Ops V}

/-- What edges hold. -/
def eheld (c : Env) (es : List (Edge V)) : Multiset (Nat × Nat) := (es.map (Edge.held c)).sum

@[simp] theorem eheld_nil (c : Env) : eheld c ([] : List (Edge V)) = 0 := rfl
@[simp] theorem eheld_cons (c : Env) (e : Edge V) (es : List (Edge V)) : eheld c (e :: es) = e.held c + eheld c es := rfl
@[simp] theorem eheld_append (c : Env) (es fs : List (Edge V)) : eheld c (es ++ fs) = eheld c es + eheld c fs := by simp [eheld]

theorem eheld_perm (c : Env) {es fs : List (Edge V)} (h : es.Perm fs) : eheld c es = eheld c fs := (h.map _).sum_eq

theorem free_bal (c : Env) (es : List (Edge V)) (w : World) (x : Multiset (Nat × Nat)) : Bal w (freeEdges c es w) (eheld c es + x) x :=
  freeEdges_bal c es w x

theorem unequal_bal (f : Nat → Verdict) (a b : Option (Obj V)) (w : World) (x : Multiset (Nat × Nat)) : Bal w (unequal f a b w).2 x x := by
  unfold unequal
  split_ifs
  · exact Bal.refl w x
  · exact Bal.refl w x
  · exact Bal.tick w _ x

/-! ## Removing repeated edges -/

theorem place_bal (bs : List (List (Edge V))) (e : Edge V) (w : World) (x : Multiset (Nat × Nat)) : Bal w (place c o bs e w).2 x x := by
  induction bs generalizing w with
  | nil => exact alloc_bal c w x
  | cons b bs ih =>
    unfold place
    dsimp only
    have h := passed_bal o.eSame w x
    split_ifs
    · exact h
    · exact h
    · exact h.trans (ih _)

theorem place_perm (bs : List (List (Edge V))) (e : Edge V) (w : World) {r : List (List (Edge V))} (h : (place c o bs e w).1 = some r) :
    r.flatten.Perm (e :: bs.flatten) := by
  induction bs generalizing w r with
  | nil =>
    unfold place at h
    dsimp only at h
    split_ifs at h
    injection h with h; subst h; simp
  | cons b bs ih =>
    unfold place at h
    dsimp only at h
    split_ifs at h
    · injection h with h; subst h; simp
    · obtain ⟨r', h1, h2⟩ := Option.map_eq_some_iff.1 h
      subst h2
      have := ih _ h1
      simp only [List.flatten_cons]
      exact (this.append_left b).trans (List.perm_middle)

theorem bundle_bal (es : List (Edge V)) (bs : List (List (Edge V))) (w : World) (x : Multiset (Nat × Nat)) : Bal w (bundle c o es bs w).2 x x := by
  induction es generalizing bs w with
  | nil => exact Bal.refl w x
  | cons e es ih =>
    unfold bundle
    by_cases hw : w.err ≠ 0
    · rw [if_pos hw]; exact Bal.refl w x
    · rw [if_neg hw]
      dsimp only
      have h := place_bal (c := c) (o := o) bs e w x
      split
      · exact h
      · exact h.trans (ih _ _)

theorem bundle_perm (es : List (Edge V)) (bs : List (List (Edge V))) (w : World) {r : List (List (Edge V))} (h : (bundle c o es bs w).1 = some r) :
    r.flatten.Perm (es ++ bs.flatten) := by
  induction es generalizing bs w with
  | nil => unfold bundle at h; injection h with h; subst h; exact .refl _
  | cons e es ih =>
    unfold bundle at h
    by_cases hw : w.err ≠ 0
    · rw [if_pos hw] at h; exact absurd h (by simp)
    · rw [if_neg hw] at h
      dsimp only at h
      split at h
      · exact absurd h (by simp)
      · rename_i bs' he
        refine (ih _ _ h).trans ?_
        refine ((place_perm bs e w he).append_left es).trans ?_
        exact List.perm_middle

theorem rallyBins_bal (ks acc : List (List (Edge V))) (w : World) (x : Multiset (Nat × Nat)) : Bal w (rallyBins c o ks acc w).2 x x := by
  induction ks generalizing acc w with
  | nil => exact Bal.refl w x
  | cons k ks ih =>
    unfold rallyBins
    dsimp only
    have h := bundle_bal (c := c) (o := o) k [] w x
    split
    · exact h
    · exact h.trans (ih _ _)

theorem rallyBins_perm (ks acc : List (List (Edge V))) (w : World) {r : List (List (Edge V))} (h : (rallyBins c o ks acc w).1 = some r) :
    r.flatten.Perm (ks.flatten ++ acc.flatten) := by
  induction ks generalizing acc w with
  | nil => unfold rallyBins at h; injection h with h; subst h; exact .refl _
  | cons k ks ih =>
    unfold rallyBins at h
    dsimp only at h
    split at h
    · exact absurd h (by simp)
    · rename_i b he
      refine (ih _ _ h).trans ?_
      have h1 := bundle_perm k [] w he
      simp only [List.flatten_nil, List.append_nil] at h1
      simp only [List.flatten_append, List.flatten_cons, List.append_assoc]
      rw [← List.append_assoc, ← List.append_assoc]
      exact ((List.perm_append_comm).trans (h1.append_right _)).append_right _

theorem inserts_bal (k : Nat) (w : World) (x : Multiset (Nat × Nat)) : Bal w (inserts c k w) x x := by
  induction k generalizing w with
  | zero => exact Bal.refl w x
  | succ k ih =>
    unfold inserts
    split_ifs
    · exact Bal.refl w x
    · exact (alloc_bal c w x).trans (ih _)

theorem rally_bal (es : List (Edge V)) (w : World) (x : Multiset (Nat × Nat)) : Bal w (rally c o es w).2 x x := by
  unfold rally
  dsimp only
  have h := inserts_bal (c := c) es.length w x
  split_ifs
  · exact h
  · exact h.trans (rallyBins_bal _ _ _ x)

theorem rally_perm (es : List (Edge V)) (w : World) {r : List (List (Edge V))} (h : (rally c o es w).1 = some r) : r.flatten.Perm es := by
  unfold rally at h
  dsimp only at h
  split_ifs at h
  have := rallyBins_perm _ _ _ h
  simp only [List.flatten_nil, List.append_nil] at this
  exact this.trans (((List.reverse_perm _).flatten).trans (marshalled_grouping _ es).perm)

theorem clash_bal (v : Option (Obj V)) (es : List (Edge V)) (w : World) (x : Multiset (Nat × Nat)) : Bal w (clash o v es w).2 x x := by
  induction es generalizing w with
  | nil => exact Bal.refl w x
  | cons e es ih =>
    unfold clash
    dsimp only
    have h := unequal_bal o.vSame v e.vertex w x
    split_ifs
    · exact h.trans (ih _)
    · exact h

theorem uniqueBucket_bal (l r : List (Edge V)) (w : World) (x : Multiset (Nat × Nat)) :
    Bal w (uniqueBucket c o l r w).2 (eheld c l + eheld c r + x) (eheld c (uniqueBucket c o l r w).1 + x) := by
  induction l generalizing r w with
  | nil => exact (Bal.refl w _).cast rfl (by simp [uniqueBucket])
  | cons p l ih =>
    unfold uniqueBucket
    dsimp only
    have h := clash_bal (o := o) p.vertex l w (eheld c (p :: l) + eheld c r + x)
    split_ifs
    · refine h.trans (((free_bal c [p] _ (eheld c l + eheld c r + x)).cast ?_ rfl).trans (ih _ _))
      simp; abel
    · refine h.trans ((ih _ _).cast ?_ rfl)
      simp; abel

theorem uniqueBuckets_bal (bs : List (List (Edge V))) (r : List (Edge V)) (w : World) (x : Multiset (Nat × Nat)) :
    Bal w (uniqueBuckets c o bs r w).2 (eheld c bs.flatten + eheld c r + x) (eheld c (uniqueBuckets c o bs r w).1 + x) := by
  induction bs generalizing r w with
  | nil => exact (Bal.refl w _).cast rfl (by simp [uniqueBuckets])
  | cons b bs ih =>
    unfold uniqueBuckets
    have h := uniqueBucket_bal (c := c) (o := o) b r w (eheld c bs.flatten + x)
    refine (h.cast ?_ rfl).trans ((ih _ _).cast ?_ rfl)
    · simp; abel
    · abel

theorem unique_bal (es : List (Edge V)) (w : World) (x : Multiset (Nat × Nat)) :
    Bal w (unique c o es w).2 (eheld c es + x) (eheld c (unique c o es w).1 + x) := by
  unfold unique
  dsimp only
  have h := rally_bal (c := c) (o := o) es w (eheld c es + x)
  split
  · exact h.trans ((free_bal c es _ x).cast rfl (by simp))
  · rename_i bs he
    refine h.trans ((uniqueBuckets_bal bs [] _ x).cast ?_ rfl)
    rw [eheld_perm c (rally_perm es w he)]; simp

/-! ## Packets -/

@[simp] theorem inFlight_nil (c : Env) : inFlight c (0 : Multiset (Pkt V)) = 0 := rfl
@[simp] theorem inFlight_cons (c : Env) (p : Pkt V) (m : Multiset (Pkt V)) : inFlight c (p ::ₘ m) = p.held c + inFlight c m := by simp [inFlight]
@[simp] theorem inFlight_add (c : Env) (m m' : Multiset (Pkt V)) : inFlight c (m + m') = inFlight c m + inFlight c m' := by simp [inFlight]
theorem inFlight_coe_cons (c : Env) (p : Pkt V) (l : List (Pkt V)) : inFlight c ((p :: l : List (Pkt V)) : Multiset (Pkt V)) = p.held c + inFlight c (l : Multiset (Pkt V)) := by
  rw [← Multiset.cons_coe, inFlight_cons]
theorem inFlight_coe_nil (c : Env) : inFlight c (([] : List (Pkt V)) : Multiset (Pkt V)) = 0 := rfl

theorem heldLabels_cons (c : Env) (l : Option (Obj V)) (ls : List (Option (Obj V))) : heldLabels c (l :: ls) = owned c.eFree l + heldLabels c ls := by
  simp [heldLabels]

theorem heldLabels_append (c : Env) (ls ms : List (Option (Obj V))) : heldLabels c (ls ++ ms) = heldLabels c ls + heldLabels c ms := by
  simp [heldLabels]

theorem heldLabels_nil (c : Env) : heldLabels c ([] : List (Option (Obj V))) = 0 := rfl

theorem scatterOut_bal (es : List (Edge V)) (w : World) (x : Multiset (Nat × Nat)) :
    Bal w (scatterOut c o es w).2 (eheld c es + x) (heldLabels c (scatterOut c o es w).1.1 + inFlight c ((scatterOut c o es w).1.2 : Multiset (Pkt V)) + x) := by
  induction es generalizing w x with
  | nil => exact (Bal.refl w _).cast rfl (by simp [scatterOut, heldLabels, inFlight])
  | cons e es ih =>
    unfold scatterOut
    split_ifs
    · exact (free_bal c (e :: es) w x).cast rfl (by simp [heldLabels, inFlight])
    · exact (alloc_bal c w _).trans ((free_bal c (e :: es) _ x).cast rfl (by simp [heldLabels, inFlight]))
    · refine (alloc_bal c w _).trans ((ih _ (e.held c + x)).cast ?_ ?_)
      · simp; abel
      · dsimp only
        rw [inFlight_coe_cons, heldLabels_cons, Edge.held]; simp only [Pkt.held]; abel

theorem scatterKnown_bal (es : List (Nat × Nat)) (w : World) (x : Multiset (Nat × Nat)) :
    Bal w (scatterKnown c o es w).2 x (inFlight c ((scatterKnown c o es w).1 : Multiset (Pkt V)) + x) := by
  induction es generalizing w x with
  | nil => exact (Bal.refl w _).cast rfl (by simp [scatterKnown, inFlight])
  | cons e es ih =>
    unfold scatterKnown
    split_ifs
    · exact (alloc_bal c w _).cast rfl (by simp [inFlight])
    · refine (alloc_bal c w _).trans ((ih _ x).cast rfl ?_)
      dsimp only
      rw [inFlight_coe_cons]; simp [Pkt.held]

/-! ## Calling the connector -/

theorem call_bal (w : World) (x : Multiset (Nat × Nat)) : Bal w (call c o w).2 x (eheld c (call c o w).1 + x) := by
  unfold call
  dsimp only
  have h1 : Bal w { w with clock := w.clock + 1 } x x := (Bal.tick w 0 x (u := w.upset)).cast rfl rfl |> fun h => ⟨h.ledger, fun hw => ⟨fun y hy => Nat.lt_succ_of_lt (hw.past y hy), hw.nodup⟩⟩
  have h2 := connectCalls_bal c (o.connect w.clock).1 [] { w with clock := w.clock + 1 } x
  refine h1.trans ((h2.cast (by simp) rfl).trans ((Bal.err _ w.err _).trans (Bal.upsetting _ _ _ _)))

theorem record_bal (w : World) (x : Multiset (Nat × Nat)) : Bal w (record c o w) x x := by
  unfold record
  have h1 := alloc_bal c w x
  have h2 := h1.trans (passed_bal o.eSame _ x)
  split_ifs
  · exact h1
  · exact h2
  · exact h2.trans (alloc_bal c _ x)

theorem reachNew_bal (v : Option (Obj V)) (initial q : Bool) (w : World) (x : Multiset (Nat × Nat)) :
    Bal w (reachNew c o v initial q w).2 (owned c.vFree v + x)
      (held c (reachNew c o v initial q w).1.1.toList + inFlight c ((reachNew c o v initial q w).1.2 : Multiset (Pkt V)) + x) := by
  unfold reachNew
  have h0 : Bal w (if o.sub = true ∧ initial = false then record c o w else w) (owned c.vFree v + x) (owned c.vFree v + x) := by
    split_ifs
    · exact record_bal w _
    · exact Bal.refl w _
  generalize (if o.sub = true ∧ initial = false then record c o w else w) = w0 at h0 ⊢
  have h1 := h0.trans (call_bal (c := c) (o := o) w0 _)
  generalize call c o w0 = k at h1 ⊢
  dsimp only
  have ha := h1.trans (alloc_bal c k.2 _)
  have hz : held c (none : Option (Node V)).toList + inFlight c (([] : List (Pkt V)) : Multiset (Pkt V)) + x = x := by simp [held, inFlight]
  have hd : ∀ w', Bal w' (freeEdges c k.1 (destroy c.fails c.vFree v w')) (eheld c k.1 + (owned c.vFree v + x)) x := fun w' =>
    ((destroy_frame c c.vFree v w' (eheld c k.1 + x)).trans (free_bal c k.1 _ x)).cast (by abel) rfl
  by_cases e1 : k.2.err ≠ 0
  · rw [if_pos e1]
    exact h1.trans ((hd _).cast rfl hz.symm)
  · rw [if_neg e1]
    by_cases e2 : (alloc c k.2).err ≠ 0
    · rw [if_pos e2]
      exact ha.trans ((hd _).cast rfl hz.symm)
    · rw [if_neg e2]
      have h2 : ∀ w2 : World, w2 = (if q then alloc c k.2 else alloc c (alloc c k.2)) → Bal w w2 (owned c.vFree v + x) (eheld c k.1 + (owned c.vFree v + x)) := by
        rintro w2 rfl
        split_ifs
        · exact ha
        · exact ha.trans (alloc_bal c _ _)
      have h3 := h2 _ rfl
      generalize (if q then alloc c k.2 else alloc c (alloc c k.2)) = w2 at h3 ⊢
      by_cases e3 : w2.err ≠ 0
      · rw [if_pos e3]
        exact h3.trans ((free_bal c k.1 w2 _).trans ((destroy_frame c c.vFree v _ x).cast rfl hz.symm))
      · rw [if_neg e3]
        refine h3.trans ((unique_bal k.1 w2 _).trans ((scatterOut_bal _ _ _).cast rfl ?_))
        simp only [held, Option.toList_some, List.map_cons, List.map_nil, List.sum_cons, List.sum_nil, Node.held]; abel

theorem reachExtant_bal (v : Option (Obj V)) (w : World) (x : Multiset (Nat × Nat)) :
    Bal w (reachExtant c o v w).2 (owned c.vFree v + x)
      (heldLabels c (reachExtant c o v w).1.1 + inFlight c ((reachExtant c o v w).1.2 : Multiset (Pkt V)) + x) := by
  unfold reachExtant
  dsimp only
  have h1 := destroy_frame c c.vFree v w x
  have h2 := h1.trans (passed_bal o.recorded _ x)
  split_ifs
  · exact h1.cast rfl (by simp [heldLabels, inFlight])
  · exact h2.cast rfl (by simp [heldLabels, inFlight])
  · exact h2.trans ((record_bal _ x).trans ((call_bal _ x).trans ((unique_bal _ _ _).trans (scatterOut_bal _ _ _))))

/-! ## Edges with different termini -/

theorem dedup_all {N : Type} (same : Nat → Verdict) (addr : N → Nat) (es : List (DedupAcc.Edge N V)) (w : World)
    (ha : (es.map fun e => addr e.dst).Nodup) (h : (dedup c same addr es w).2.err = 0) : (dedup c same addr es w).1.Perm es := by
  unfold dedup at h ⊢
  dsimp only at h ⊢
  by_cases he : (DedupAcc.dedupLoop c same (DedupAcc.marshal c addr es w).1.1 [] (DedupAcc.marshal c addr es w).2).2.err ≠ 0
  · rw [if_pos he] at h
    have h1 := DedupAcc.freeEdges_sticky (c := c) (DedupAcc.dedupLoop c same (DedupAcc.marshal c addr es w).1.1 [] (DedupAcc.marshal c addr es w).2).1 he
    rw [DedupAcc.freeEdges_sticky _ (by rw [h1]; exact he), h1] at h
    exact absurd h he
  · rw [if_neg he]
    have h1 : (DedupAcc.marshal c addr es w).2.err = 0 := by
      by_contra h1
      exact he (by rw [DedupAcc.dedupLoop_sticky same _ _ h1]; exact h1)
    rw [DedupAcc.marshal_eq c addr es w h1]
    have hg := marshalled_grouping (fun e : DedupAcc.Edge N V => addr e.dst) es
    dsimp only
    have hb : ∀ b ∈ marshalled (fun e : DedupAcc.Edge N V => addr e.dst) es, b.length < 2 := by
      intro b hb
      by_contra hl
      have hn : ((marshalled (fun e : DedupAcc.Edge N V => addr e.dst) es).flatten.map fun e => addr e.dst).Nodup :=
        ((hg.perm.map _).nodup_iff).2 ha
      have hs : (b.map fun e => addr e.dst).Nodup := ((List.sublist_flatten_of_mem hb).map _).nodup hn
      match b, hb, hl, hs with
      | x :: y :: l, hb, _, hs =>
        have hxy := hg.within _ hb x (by simp) y (by simp)
        simp [hxy] at hs
      | [x], _, hl, _ => simp at hl
      | [], _, hl, _ => simp at hl
    have hloop : ∀ (bs : List (List (DedupAcc.Edge N V))) (r : List (DedupAcc.Edge N V)) (w : World), (∀ b ∈ bs, b.length < 2) →
        (DedupAcc.dedupLoop c same bs r w).1.Perm (bs.flatten ++ r) := by
      intro bs
      induction bs with
      | nil => intro r w _; exact .refl _
      | cons b bs ih =>
        intro r w hbs
        unfold DedupAcc.dedupLoop
        dsimp only
        have hr : (DedupAcc.repeating c same b w).1 = (b, []) := by
          unfold DedupAcc.repeating; rw [if_pos (hbs b (by simp))]
        refine (ih _ _ (fun b' hb' => hbs b' (by simp [hb']))).trans ?_
        rw [hr]
        simp only [List.flatten_cons, ← List.append_assoc]
        exact List.perm_append_comm.append_right r
    exact ((hloop _ [] _ hb).trans (by simp)).trans hg.perm

/-- Edges with termini that are held have different termini. -/
theorem addr_nodup {d : Nat} (hd : c.vFree = some d) (es : List (Edge V)) (hs : ∀ e ∈ es, e.vertex.isSome = true)
    (hn : ((eheld c es).map Prod.fst).Nodup) : (es.map fun e => addr e.vertex).Nodup := by
  induction es with
  | nil => simp
  | cons e es ih =>
    have h1 : ((eheld c es).map Prod.fst).Nodup := by
      rw [eheld_cons, Multiset.map_add] at hn
      exact (Multiset.nodup_add.1 hn).2.1
    rw [List.map_cons, List.nodup_cons]
    refine ⟨?_, ih (fun e' he' => hs e' (by simp [he'])) h1⟩
    intro hm
    obtain ⟨e', he', ha⟩ := List.mem_map.1 hm
    obtain ⟨a, hea⟩ := Option.isSome_iff_exists.1 (hs e (by simp))
    obtain ⟨b, heb⟩ := Option.isSome_iff_exists.1 (hs e' (by simp [he']))
    rw [hea, heb] at ha
    have hid : b.id = a.id := by simpa [addr] using ha
    rw [eheld_cons, Multiset.map_add] at hn
    have hdis := (Multiset.nodup_add.1 hn).2.2
    have h2 : a.id ∈ (e.held c).map Prod.fst := by
      refine Multiset.mem_map.2 ⟨(a.id, d), ?_, rfl⟩
      simp [Edge.held, hd, hea, owned]
    have h3 : a.id ∈ (eheld c es).map Prod.fst := by
      refine Multiset.mem_map.2 ⟨(b.id, d), ?_, hid⟩
      have : e'.held c ≤ eheld c es := by
        obtain ⟨l, r, rfl⟩ := List.append_of_mem he'
        rw [eheld_append, eheld_cons, add_left_comm]
        exact Multiset.le_add_right _ _
      refine Multiset.mem_of_le this ?_
      simp [Edge.held, hd, heb, owned]
    exact Multiset.disjoint_left.1 hdis h2 h3

theorem dedup_sticky {N : Type} (same : Nat → Verdict) (addr : N → Nat) (es : List (DedupAcc.Edge N V)) {w : World} (h : w.err ≠ 0) :
    (dedup c same addr es w).2.err = w.err := by
  have h1 : (DedupAcc.stow c es w).2 = w := by cases es with
    | nil => rfl
    | cons e es => rw [DedupAcc.stow, if_pos h]
  have h2 : ∀ ks b, (DedupAcc.pushBuckets c ks b w).2 = (w : World) := fun (ks b : List (List (DedupAcc.Edge N V))) => by cases ks with
    | nil => rfl
    | cons k ks => rw [DedupAcc.pushBuckets, if_pos h]
  have h3 : (DedupAcc.marshal c addr es w).2 = w := by
    unfold DedupAcc.marshal
    dsimp only
    rw [h1, h2, if_pos h]
  unfold dedup
  dsimp only
  rw [h3]
  have h4 : (DedupAcc.dedupLoop c same (DedupAcc.marshal c addr es w).1.1 [] w).2.err = w.err := DedupAcc.dedupLoop_sticky same _ _ h
  generalize DedupAcc.dedupLoop c same (DedupAcc.marshal c addr es w).1.1 [] w = d at h4 ⊢
  rw [if_pos (by rw [h4]; exact h)]
  dsimp only
  have h5 : (DedupAcc.freeEdges c d.1 d.2).err = w.err := by rw [DedupAcc.freeEdges_sticky _ (by rw [h4]; exact h), h4]
  rw [DedupAcc.freeEdges_sticky _ (by rw [h5]; exact h), h5]

/-- A balanced ledger. -/
def Even (w : World) (x : Multiset (Nat × Nat)) : Prop := w.WF ∧ w.made = w.freed + x

theorem Even.bal {w w' : World} {i x : Multiset (Nat × Nat)} (h : Even w i) (hb : Bal w w' i x) : Even w' x :=
  ⟨hb.wf h.1, (Request.Exact.bal hb h.1 h.2).2⟩

theorem Even.cast {w : World} {x y : Multiset (Nat × Nat)} (h : Even w x) (e : x = y) : Even w y := e ▸ h

theorem Even.nodup {w : World} {x y : Multiset (Nat × Nat)} (h : Even w (x + y)) : (x.map Prod.fst).Nodup := by
  have h1 := h.1.nodup
  rw [h.2, Multiset.map_add, Multiset.map_add] at h1
  exact (Multiset.nodup_add.1 (Multiset.nodup_add.1 h1).2.1).1

theorem eheld_split (c : Env) (es : List (Edge V)) : eheld c es = heldLabels c (es.map Edge.label) + leaked c (es.map Edge.vertex) := by
  induction es with
  | nil => simp [heldLabels, leaked]
  | cons e es ih =>
    rw [eheld_cons, ih]
    simp only [heldLabels, leaked, List.map_cons, List.sum_cons, Edge.held]; abel

theorem leaked_free {c : Env} (h : c.vFree = none) (vs : List (Option (Obj V))) : leaked c vs = 0 := by
  unfold leaked
  rw [h]
  induction vs with
  | nil => rfl
  | cons v vs ih => simp only [List.map_cons, List.sum_cons, ih]; simp [owned]

theorem breakOut_even (initial : Bool) {w : World} {x : Multiset (Nat × Nat)} (h : Even w x) :
    Even (breakOut c o initial w).2
      (heldLabels c (breakOut c o initial w).1.1.1 + inFlight c ((breakOut c o initial w).1.1.2 : Multiset (Pkt V)) + leaked c (breakOut c o initial w).1.2 + x) := by
  unfold breakOut
  dsimp only
  by_cases hsub : o.sub = false
  · rw [if_pos hsub]
    exact (h.bal ((call_bal w x).trans (scatterOut_bal _ _ _))).cast (by simp [leaked])
  · rw [if_neg hsub]
    by_cases hi : initial = true
    · rw [if_pos hi]
      exact (h.bal (Bal.raise w _ x)).cast (by simp [leaked, heldLabels, inFlight])
    · rw [if_neg hi]
      have h1 := h.bal ((record_bal (c := c) (o := o) w x).trans (call_bal (c := c) (o := o) _ x))
      generalize call c o (record c o w) = k at h1 ⊢
      have h2 : Even (if k.1.any (fun e => e.vertex.isNone) = true then k.2.raise (-1714) else k.2) (eheld c k.1 + x) := by
        split_ifs
        · exact h1.bal (Bal.raise _ _ _)
        · exact h1
      have h3 : (if k.1.any (fun e => e.vertex.isNone) = true then k.2.raise (-1714) else k.2).err = 0 → ∀ e ∈ k.1, e.vertex.isSome = true := by
        intro he e hm
        by_contra hc
        have hany : k.1.any (fun e => e.vertex.isNone) = true := List.any_eq_true.2 ⟨e, hm, by simpa using hc⟩
        rw [if_pos hany] at he
        revert he
        unfold World.raise
        split_ifs with h0 <;> simp [h0]
      generalize (if k.1.any (fun e => e.vertex.isNone) = true then k.2.raise (-1714) else k.2) = w1 at h2 h3 ⊢
      have hl : (k.1.map fun e => (⟨e.label, e.vertex⟩ : DedupAcc.Edge (Option (Obj V)) V)).map DedupAcc.Edge.label = k.1.map Edge.label := by simp
      have h4 := h2.bal ((DedupAcc.dedup_bal c o.eSame addr (k.1.map fun e => ⟨e.label, e.vertex⟩) w1 (leaked c (k.1.map Edge.vertex) + x)).cast
        (by rw [DedupAcc.labels, hl, eheld_split]; abel) rfl)
      have h5 := DedupAcc.dedup_err c o.eSame addr (k.1.map fun e => ⟨e.label, e.vertex⟩) w1
      have h6 := dedup_sticky (c := c) o.eSame addr (k.1.map fun e => ⟨e.label, e.vertex⟩) (w := w1)
      have h7 := dedup_all (c := c) o.eSame addr (k.1.map fun e => ⟨e.label, e.vertex⟩) w1
      generalize dedup c o.eSame addr (k.1.map fun e => (⟨e.label, e.vertex⟩ : DedupAcc.Edge (Option (Obj V)) V)) w1 = d at h4 h5 h6 h7 ⊢
      by_cases he : d.2.err ≠ 0
      · rw [if_pos he, h5 he]
        rw [h5 he] at h4
        exact h4.cast (by simp [scatterOut, heldLabels, inFlight])
      · rw [if_neg he]
        have he' : d.2.err = 0 := by simpa using he
        have h8 : leaked c (k.1.map Edge.vertex) = leaked c ((d.1.map fun e => (⟨e.label, e.dst⟩ : Edge V)).map Edge.vertex) := by
          cases hd : c.vFree with
          | none => rw [leaked_free hd, leaked_free hd]
          | some t =>
            have hw : w1.err = 0 := by
              by_contra hw
              exact hw ((h6 hw).symm.trans he')
            have hn := addr_nodup hd k.1 (h3 hw) h2.nodup
            have hp := h7 (by rw [List.map_map]; exact hn) he'
            have hp' := hp.map DedupAcc.Edge.dst
            have e1 : (k.1.map fun e => (⟨e.label, e.vertex⟩ : DedupAcc.Edge (Option (Obj V)) V)).map DedupAcc.Edge.dst = k.1.map Edge.vertex := by simp
            have e2 : (d.1.map fun e => (⟨e.label, e.dst⟩ : Edge V)).map Edge.vertex = d.1.map DedupAcc.Edge.dst := by simp
            rw [e2, ← e1]
            exact ((hp'.map _).sum_eq).symm
        have e3 : (d.1.map fun e => (⟨e.label, e.dst⟩ : Edge V)).map Edge.label = d.1.map DedupAcc.Edge.label := by simp
        have h9 : Even d.2 (eheld c (d.1.map fun e => (⟨e.label, e.dst⟩ : Edge V)) + x) := h4.cast (by
          rw [eheld_split, e3, ← h8, DedupAcc.labels]; abel)
        exact (h9.bal (scatterOut_bal _ _ _)).cast (by simp [leaked])

/-! ## Workers -/

theorem held_append (c : Env) (as bs : List (Node V)) : held c (as ++ bs) = held c as + held c bs := by simp [held]

theorem held_modify (c : Env) (as : List (Node V)) (k : Nat) (hk : k < as.length) (f : Node V → Node V) (y : Multiset (Nat × Nat))
    (hf : ∀ a, (f a).held c = y + a.held c) : held c (as.modify k f) = y + held c as := by
  induction as generalizing k with
  | nil => simp at hk
  | cons a as ih =>
    cases k with
    | zero => simp only [held, List.modify_zero_cons, List.map_cons, List.sum_cons, hf]; abel
    | succ k =>
      have := ih k (by simpa using hk)
      simp only [held, List.modify_succ_cons, List.map_cons, List.sum_cons] at this ⊢
      rw [this]; abel

theorem held_set (c : Env) (as : List (Node V)) (k : Nat) {a b : Node V} (y : Multiset (Nat × Nat)) (ha : as[k]? = some a) (hb : b.held c = y + a.held c) :
    held c (as.set k b) = y + held c as := by
  induction as generalizing k with
  | nil => simp at ha
  | cons a' as ih =>
    cases k with
    | zero =>
      simp only [List.getElem?_cons_zero, Option.some.injEq] at ha; subst ha
      simp only [held, List.set_cons_zero, List.map_cons, List.sum_cons, hb]; abel
    | succ k =>
      have := ih k (by simpa using ha)
      simp only [held, List.set_cons_succ, List.map_cons, List.sum_cons] at this ⊢
      rw [this]; abel

/-- What a job holds. -/
def total (c : Env) (s : Job n V) : Multiset (Nat × Nat) := allHeld c s.nodes + allHeld c s.given + leaked c s.lost

theorem outstanding_eq (c : Env) (s : Job n V) (m : Multiset (Pkt V)) : outstanding c s m = total c s + inFlight c m := by
  unfold outstanding total; abel

/-- The positions in the table are positions in the queue, once it's there. -/
def Tabled (s : Job n V) (i : Fin n) : Prop := ∀ h, ∀ k ∈ s.tab i h, k < (s.nodes i ++ s.given i).length

theorem own_even {s : Job n V} {i : Fin n} {x : Multiset (Nat × Nat)} (h : Even s.world x) : Even (own i s) x := h.bal (Bal.err s.world (s.err i) x)

theorem poll_eq (s : Job n V) (i : Fin n) : ∃ sample stop, poll s i = { s with sample := sample, stop := stop } := by
  unfold poll
  split_ifs
  · exact ⟨s.sample, s.stop, rfl⟩
  · exact ⟨_, _, rfl⟩

theorem discard_even {s : Job n V} {i : Fin n} {v : Option (Obj V)} {x : Multiset (Nat × Nat)} (h : Even s.world (total c s + (owned c.vFree v + x))) :
    Even (discard c i v s).world (total c (discard c i v s) + x) :=
  (own_even (i := i) h).bal ((destroy_frame c c.vFree v _ (total c s + x)).cast (by abel) rfl)

theorem begin_even {ends : Fin n → List (Nat × Nat)} {s : Job n V} {i : Fin n} {x : Multiset (Nat × Nat)} (hq : s.started i = false → s.nodes i = [])
    (hb : o.spread = false → s.given i = []) (h : Even s.world (total c s + x)) :
    Even (begin c o ends i s).1.world (total c (begin c o ends i s).1 + (inFlight c ((begin c o ends i s).2 : Multiset (Pkt V)) + x)) := by
  unfold begin
  by_cases h0 : o.spread = false ∨ s.started i = true
  · rw [if_pos h0]; exact h.cast (by simp [inFlight])
  · rw [if_neg h0]
    dsimp only
    have h1 : Even (alloc c (own i { s with started := Function.update s.started i true })) (total c s + x) := (own_even (i := i) h).bal (alloc_bal c _ _)
    generalize alloc c (own i { s with started := Function.update s.started i true }) = w at h1 ⊢
    split_ifs
    · exact h1.cast (by simp [inFlight, total, store])
    · refine (h1.bal (scatterKnown_bal (ends i) w _)).cast ?_
      have hn : s.nodes i = [] := hq (by simpa using fun e => h0 (.inr e))
      obtain ⟨a, e1, e2⟩ := SpawnAcc.allHeld_update c s.nodes i (s.given i)
      obtain ⟨b, e3, e4⟩ := SpawnAcc.allHeld_update c s.given i []
      simp only [total, store]
      rw [e1, e2, e3, e4, hn]
      simp only [held, List.map_nil, List.sum_nil]; abel

theorem walk_bal (v : Option (Obj V)) (as : List (Node V)) (ks : List Nat) (w : World) (x : Multiset (Nat × Nat)) : Bal w (walk o v as ks w).2 x x := by
  induction ks generalizing w with
  | nil => exact Bal.refl w x
  | cons k ks ih =>
    unfold walk
    dsimp only
    have h := unequal_bal o.vSame v ((as[k]?).bind Node.vertex) w x
    split_ifs
    · exact h.trans (ih _)
    · exact h

theorem walk_mem (v : Option (Obj V)) (as : List (Node V)) (ks : List Nat) (w : World) {k : Nat} (h : (walk o v as ks w).1 = some k) : k ∈ ks := by
  induction ks generalizing w with
  | nil => simp [walk] at h
  | cons k' ks ih =>
    unfold walk at h
    dsimp only at h
    split_ifs at h
    · exact List.mem_cons_of_mem _ (ih _ h)
    · injection h with h; subst h; simp

theorem admit_even {s : Job n V} {i : Fin n} {v : Option (Obj V)} {initial : Bool} {x : Multiset (Nat × Nat)} (hg : s.err i = 0 → s.given i = []) (ht : Tabled s i)
    (h : Even s.world (total c s + (owned c.vFree v + x))) :
    Even (admit c o i s v initial).1.world (total c (admit c o i s v initial).1 + (inFlight c ((admit c o i s v initial).2 : Multiset (Pkt V)) + x)) := by
  have hz : ∀ s' : Job n V, Even s'.world (total c s' + x) → Even s'.world (total c s' + (inFlight c (([] : List (Pkt V)) : Multiset (Pkt V)) + x)) := fun s' h' =>
    h'.cast (by simp [inFlight])
  unfold admit
  by_cases e1 : s.err i ≠ 0 ∨ s.stop i = true
  · rw [if_pos e1]; exact hz _ (discard_even h)
  · rw [if_neg e1]
    have hg' : s.given i = [] := hg (by
      by_contra hc
      exact e1 (.inl hc))
    have h1 := (own_even (i := i) h).bal (alloc_bal c _ _)
    by_cases e2 : (alloc c (own i s)).err ≠ 0
    · rw [if_pos e2]
      exact hz _ (discard_even (s := store i s (alloc c (own i s))) h1)
    · rw [if_neg e2]
      dsimp only
      have h2 := h1.bal (walk_bal (o := o) v (s.nodes i) (s.tab i (o.vHash v)) _ _)
      have hm := fun k => walk_mem (o := o) v (s.nodes i) (s.tab i (o.vHash v)) (alloc c (own i s)) (k := k)
      generalize walk o v (s.nodes i) (s.tab i (o.vHash v)) (alloc c (own i s)) = r at h2 hm ⊢
      by_cases e3 : r.2.err ≠ 0
      · rw [if_pos e3]
        exact hz _ (discard_even (s := store i s r.2) h2)
      · rw [if_neg e3]
        split
        · rename_i k hk
          have hlt : k < (s.nodes i).length := by
            have := ht _ k (hm k hk)
            rw [hg', List.append_nil] at this
            exact this
          have h3 := h2.bal ((reachExtant_bal (o := o) v r.2 (total c s + x)).cast (by abel) rfl)
          generalize reachExtant c o v r.2 = y at h3 ⊢
          refine h3.cast ?_
          obtain ⟨a, e1, e2⟩ := SpawnAcc.allHeld_update c s.nodes i ((s.nodes i).modify k fun a => { a with out := y.1.1 ++ a.out })
          simp only [total, store]
          rw [e1, e2, held_modify c _ k hlt _ (heldLabels c y.1.1) (fun a => by simp only [Node.held, heldLabels_append]; abel)]
          abel
        · by_cases e4 : o.limit ≠ 0 ∧ o.limit ≤ s.count i
          · rw [if_pos e4]
            refine hz _ ?_
            obtain ⟨sample, stop, e⟩ := poll_eq (store i s (r.2.raise Build.intOvf)) i
            rw [e]
            exact discard_even (s := { store i s (r.2.raise Build.intOvf) with sample := sample, stop := stop }) (h2.bal (Bal.raise _ _ _))
          · rw [if_neg e4]
            have h3 := h2.bal ((reachNew_bal (o := o) v initial (s.queued i) r.2 (total c s + x)).cast (by abel) rfl)
            generalize reachNew c o v initial (s.queued i) r.2 = y at h3 ⊢
            refine h3.cast ?_
            obtain ⟨a, e1, e2⟩ := SpawnAcc.allHeld_update c s.nodes i (s.nodes i ++ y.1.1.toList)
            simp only [total, store]
            rw [e1, e2, held_append]
            abel

theorem visit_even {s : Job n V} {i : Fin n} {k : Nat} {initial : Bool} {x : Multiset (Nat × Nat)} (h : Even s.world (total c s + x)) :
    Even (visit c o i s k initial).1.world (total c (visit c o i s k initial).1 + (inFlight c ((visit c o i s k initial).2 : Multiset (Pkt V)) + x)) := by
  have hz : Even s.world (total c s + (inFlight c (([] : List (Pkt V)) : Multiset (Pkt V)) + x)) := h.cast (by simp [inFlight])
  unfold visit
  by_cases e1 : s.err i ≠ 0
  · rw [if_pos e1]; exact hz
  · rw [if_neg e1]
    split
    · exact hz
    · rename_i a ha
      by_cases e2 : a.out ≠ []
      · rw [if_pos e2]; exact hz
      · rw [if_neg e2]
        dsimp only
        have h1 := breakOut_even (c := c) (o := o) initial (own_even (i := i) h)
        generalize breakOut c o initial (own i s) = y at h1 ⊢
        have h2 : Even (store i { s with nodes := Function.update s.nodes i ((s.nodes i).set k { a with out := y.1.1.1 }), lost := s.lost ++ y.1.2 } y.2).world
            (total c (store i { s with nodes := Function.update s.nodes i ((s.nodes i).set k { a with out := y.1.1.1 }), lost := s.lost ++ y.1.2 } y.2) +
              (inFlight c (y.1.1.2 : Multiset (Pkt V)) + x)) := by
          refine h1.cast ?_
          obtain ⟨b, e3, e4⟩ := SpawnAcc.allHeld_update c s.nodes i ((s.nodes i).set k { a with out := y.1.1.1 })
          have ho : a.out = [] := by simpa using e2
          simp only [total, store]
          rw [e3, e4, held_set c _ k (heldLabels c y.1.1.1) ha (by simp only [Node.held, ho, heldLabels_nil]; abel)]
          have : leaked c (s.lost ++ y.1.2) = leaked c s.lost + leaked c y.1.2 := by simp [leaked]
          rw [this]; abel
        generalize store i { s with nodes := Function.update s.nodes i ((s.nodes i).set k { a with out := y.1.1.1 }), lost := s.lost ++ y.1.2 } y.2 = s' at h2 ⊢
        split_ifs
        · exact h2
        · exact h2

/-! ## Structure -/

/-- Before a worker of a spread starts, it has no queue; afterwards, if it has no error, it has no list; and positions are right. -/
structure Sound (o : Ops V) (s : Job n V) : Prop where
  idle : ∀ i, o.spread = true → s.started i = false → s.nodes i = []
  built : o.spread = false → ∀ i, s.given i = []
  moved : ∀ i, s.started i = true → s.err i = 0 → s.given i = []
  tabled : ∀ i, Tabled s i

/-- A part of it that survives any change to a queue that doesn't make it shorter and keeps errors. -/
theorem Sound.keep {s s' : Job n V} (h : Sound o s) (i : Fin n) (hst : s'.started = s.started) (hg : s'.given = s.given)
    (hnode : ∀ j, j ≠ i → s'.nodes j = s.nodes j) (hl : (s.nodes i).length ≤ (s'.nodes i).length) (hi : o.spread = true → s.started i = true)
    (he : ∀ j, s'.err j = 0 → s.err j = 0) (ht : ∀ j h k, k ∈ s'.tab j h → k ∈ s.tab j h ∨ (j = i ∧ k < (s'.nodes i).length)) : Sound o s' := by
  refine ⟨fun j hs hj => ?_, fun hs j => ?_, fun j h1 h2 => ?_, fun j => ?_⟩
  · have hji : j ≠ i := by
      rintro rfl
      rw [hst, hi hs] at hj; cases hj
    rw [hnode j hji]
    rw [hst] at hj
    exact h.idle j hs hj
  · rw [hg]; exact h.built hs j
  · rw [hg]; rw [hst] at h1; exact h.moved j h1 (he j h2)
  · intro hh k hk
    rw [hg]
    rcases ht j hh k hk with h1 | ⟨rfl, h1⟩
    · have h2 := h.tabled j hh k h1
      by_cases hji : j = i
      · subst hji
        simp only [List.length_append] at h2 ⊢; omega
      · rw [hnode j hji]; exact h2
    · simp only [List.length_append]; omega

theorem raise_zero {w : World} {e : Int} (h : (w.raise e).err = 0) : w.err = 0 := by
  by_contra hc
  rw [DedupAcc.raise_sticky e hc] at h; exact hc h

theorem update_zero {f : Fin n → Int} {i : Fin n} {e : Int} (h : e = 0 → f i = 0) : ∀ j, Function.update f i e j = 0 → f j = 0 := by
  intro j hj
  by_cases hji : j = i
  · subst hji; rw [Function.update_self] at hj; exact h hj
  · rwa [Function.update_of_ne hji] at hj

theorem alloc_zero {w : World} (h : (alloc c w).err = 0) : w.err = 0 := by
  have h1 := raise_zero h
  exact h1

theorem destroy_zero {d : Option Nat} {x : Option (Obj V)} {w : World} (h : (destroy c.fails d x w).err = 0) : w.err = 0 := by
  by_contra hc
  rw [DedupAcc.destroy_sticky d x hc] at h; exact hc h

theorem discard_sound {s : Job n V} {i : Fin n} {v : Option (Obj V)} (h : Sound o s) (hi : o.spread = true → s.started i = true) :
    Sound o (discard c i v s) :=
  h.keep i rfl rfl (fun _ _ => rfl) (le_refl _) hi
    (update_zero (f := s.err) (i := i) fun e => by have := destroy_zero (V := V) e; exact this) (fun _ _ _ hk => .inl hk)

theorem store_sound {s : Job n V} {i : Fin n} {w : World} (h : Sound o s) (hi : o.spread = true → s.started i = true) (he : w.err = 0 → s.err i = 0) :
    Sound o (store i s w) :=
  h.keep i rfl rfl (fun _ _ => rfl) (le_refl _) hi (update_zero he) (fun _ _ _ hk => .inl hk)

theorem begin_started {ends : Fin n → List (Nat × Nat)} {s : Job n V} {i : Fin n} (h : o.spread = true) : (begin c o ends i s).1.started i = true := by
  unfold begin
  by_cases h0 : o.spread = false ∨ s.started i = true
  · rw [if_pos h0]
    rcases h0 with h0 | h0
    · rw [h] at h0; cases h0
    · exact h0
  · rw [if_neg h0]
    dsimp only
    split_ifs <;> simp [store]

theorem begin_sound {ends : Fin n → List (Nat × Nat)} {s : Job n V} {i : Fin n} (h : Sound o s) : Sound o (begin c o ends i s).1 := by
  unfold begin
  by_cases h0 : o.spread = false ∨ s.started i = true
  · rw [if_pos h0]; exact h
  · rw [if_neg h0]
    push Not at h0
    dsimp only
    have hsp : o.spread = true := by simpa using h0.1
    have hns : s.started i = false := by simpa using h0.2
    generalize hw : alloc c (own i { s with started := Function.update s.started i true }) = w
    by_cases he : w.err ≠ 0
    · rw [if_pos he]
      refine ⟨fun j hs hj => ?_, fun hs => ?_, fun j h1 h2 => ?_, h.tabled⟩
      · simp only [store] at hj ⊢
        by_cases hji : j = i
        · subst hji; simp at hj
        · rw [Function.update_of_ne hji] at hj; exact h.idle j hs hj
      · rw [hsp] at hs; cases hs
      · simp only [store] at h1 h2 ⊢
        by_cases hji : j = i
        · subst hji; rw [Function.update_self] at h2; exact absurd h2 he
        · rw [Function.update_of_ne hji] at h1 h2; exact h.moved j h1 h2
    · rw [if_neg he]
      have hn := h.idle i hsp hns
      refine ⟨fun j hs hj => ?_, fun hs => ?_, fun j h1 h2 => ?_, fun j hh k hk => ?_⟩
      · simp only [store] at hj ⊢
        by_cases hji : j = i
        · subst hji; simp at hj
        · rw [Function.update_of_ne hji] at hj ⊢; exact h.idle j hs hj
      · rw [hsp] at hs; cases hs
      · simp only [store] at h1 h2 ⊢
        by_cases hji : j = i
        · subst hji; simp
        · rw [Function.update_of_ne hji] at h1 h2 ⊢; exact h.moved j h1 h2
      · have := h.tabled j hh k hk
        simp only [store]
        by_cases hji : j = i
        · subst hji
          rw [hn] at this
          simpa using this
        · rw [Function.update_of_ne hji, Function.update_of_ne hji]; exact this

theorem poll_sound {s : Job n V} {i : Fin n} (h : Sound o s) : Sound o (poll s i) := by
  obtain ⟨sample, stop, e⟩ := poll_eq s i
  rw [e]; exact ⟨h.idle, h.built, h.moved, h.tabled⟩

theorem admit_sound {s : Job n V} {i : Fin n} {v : Option (Obj V)} {initial : Bool} (h : Sound o s) (hi : o.spread = true → s.started i = true) :
    Sound o (admit c o i s v initial).1 := by
  unfold admit
  by_cases e1 : s.err i ≠ 0 ∨ s.stop i = true
  · rw [if_pos e1]; exact discard_sound h hi
  · rw [if_neg e1]
    have h0 : s.err i = 0 := by
      by_contra hc
      exact e1 (.inl hc)
    by_cases e2 : (alloc c (own i s)).err ≠ 0
    · rw [if_pos e2]
      exact discard_sound (store_sound h hi fun _ => h0) hi
    · rw [if_neg e2]
      dsimp only
      generalize walk o v (s.nodes i) (s.tab i (o.vHash v)) (alloc c (own i s)) = r
      by_cases e3 : r.2.err ≠ 0
      · rw [if_pos e3]
        exact discard_sound (store_sound h hi fun _ => h0) hi
      · rw [if_neg e3]
        split
        · rename_i k hk
          refine h.keep i rfl rfl (fun j hj => ?_) ?_ hi (update_zero fun _ => h0) (fun _ _ _ hk => .inl hk)
          · simp [store, hj]
          · simp [store]
        · by_cases e4 : o.limit ≠ 0 ∧ o.limit ≤ s.count i
          · rw [if_pos e4]
            refine discard_sound (poll_sound (store_sound h hi fun _ => h0)) ?_
            obtain ⟨sample, stop, e⟩ := poll_eq (store i s (r.2.raise Build.intOvf)) i
            rw [e]; exact hi
          · rw [if_neg e4]
            generalize reachNew c o v initial (s.queued i) r.2 = y
            refine h.keep i rfl rfl (fun j hj => ?_) ?_ hi (update_zero fun _ => h0) (fun j hh k hk => ?_)
            · simp [store, hj]
            · simp [store]
            · simp only [store] at hk ⊢
              by_cases hji : j = i
              · subst hji
                rw [Function.update_self] at hk
                by_cases hv : hh = o.vHash v
                · subst hv
                  rw [Function.update_self] at hk
                  rcases List.mem_append.1 hk with h1 | h1
                  · exact .inl h1
                  · right
                    rw [Function.update_self]
                    rcases hy : y.1.1 with _ | a
                    · rw [hy] at h1; simp at h1
                    · rw [hy] at h1
                      simp only [Option.isSome_some, if_true, List.mem_singleton] at h1
                      simp [h1]
                · rw [Function.update_of_ne hv] at hk; exact .inl hk
              · rw [Function.update_of_ne hji] at hk; exact .inl hk

theorem visit_sound {s : Job n V} {i : Fin n} {k : Nat} {initial : Bool} (h : Sound o s) (hi : o.spread = true → s.started i = true) :
    Sound o (visit c o i s k initial).1 := by
  unfold visit
  by_cases e1 : s.err i ≠ 0
  · rw [if_pos e1]; exact ⟨h.idle, h.built, h.moved, h.tabled⟩
  · rw [if_neg e1]
    have h0 : s.err i = 0 := by simpa using e1
    split
    · exact h
    · rename_i a ha
      by_cases e2 : a.out ≠ []
      · rw [if_pos e2]; exact h
      · rw [if_neg e2]
        dsimp only
        generalize breakOut c o initial (own i s) = y
        have h1 : Sound o (store i { s with nodes := Function.update s.nodes i ((s.nodes i).set k { a with out := y.1.1.1 }), lost := s.lost ++ y.1.2 } y.2) := by
          refine h.keep i rfl rfl (fun j hj => ?_) ?_ hi (update_zero fun _ => h0) (fun _ _ _ hk => .inl hk)
          · simp [store, hj]
          · simp [store]
        generalize store i { s with nodes := Function.update s.nodes i ((s.nodes i).set k { a with out := y.1.1.1 }), lost := s.lost ++ y.1.2 } y.2 = s' at h1 ⊢
        split_ifs
        · exact ⟨h1.idle, h1.built, h1.moved, h1.tabled⟩
        · exact h1

/-! ## Every state -/

/-- The ledger is balanced. -/
def Good (c : Env) (o : Ops V) (x : Job n V × Multiset (Pkt V)) : Prop := Sound o x.1 ∧ Even x.1.world (outstanding c x.1 x.2)

theorem good_handle {ends : Fin n → List (Nat × Nat)} {hn : 0 < n} {s : Job n V} {p : Pkt V} {rest : Multiset (Pkt V)} (ih : Good c o (s, p ::ₘ rest)) :
    Good c o (((task c o ends hn).handle ((task c o ends hn).dest p) s p).1, Bag.produced (task c o ends hn) s p + rest) := by
  obtain ⟨hS, hE⟩ := ih
  dsimp only at hS hE
  have hS1 := poll_sound (i := (task c o ends hn).dest p) hS
  have hE1 : Even (poll s ((task c o ends hn).dest p)).world (total c (poll s ((task c o ends hn).dest p)) + (p.held c + inFlight c rest)) := by
    obtain ⟨sample, stop, e⟩ := poll_eq s ((task c o ends hn).dest p)
    rw [e]
    refine hE.cast ?_
    rw [outstanding_eq, inFlight_cons]; rfl
  have hpr : Bag.produced (task c o ends hn) s p =
      (((begin c o ends ((task c o ends hn).dest p) (poll s ((task c o ends hn).dest p))).2 ++
        (match p with
          | .fresh v initial => admit c o ((task c o ends hn).dest p) (begin c o ends ((task c o ends hn).dest p) (poll s ((task c o ends hn).dest p))).1 v initial
          | .known _ k initial => visit c o ((task c o ends hn).dest p) (begin c o ends ((task c o ends hn).dest p) (poll s ((task c o ends hn).dest p))).1 k initial).2 :
        List (Pkt V)) : Multiset (Pkt V)) := by
    cases p <;> simp [Bag.produced, task, handle]
  have hst : ((task c o ends hn).handle ((task c o ends hn).dest p) s p).1 =
        (match p with
          | .fresh v initial => admit c o ((task c o ends hn).dest p) (begin c o ends ((task c o ends hn).dest p) (poll s ((task c o ends hn).dest p))).1 v initial
          | .known _ k initial => visit c o ((task c o ends hn).dest p) (begin c o ends ((task c o ends hn).dest p) (poll s ((task c o ends hn).dest p))).1 k initial).1 := rfl
  rw [hpr, hst]
  generalize (task c o ends hn).dest p = i at hS1 hE1 ⊢
  generalize poll s i = s1 at hS1 hE1 ⊢
  have hq : o.spread = true → s1.started i = false → s1.nodes i = [] := hS1.idle i
  have hS2 := begin_sound (c := c) (ends := ends) (i := i) hS1
  have hE2 : Even (begin c o ends i s1).1.world
      (total c (begin c o ends i s1).1 + (inFlight c ((begin c o ends i s1).2 : Multiset (Pkt V)) + (p.held c + inFlight c rest))) := by
    by_cases hsp : o.spread = true
    · exact begin_even (hq hsp) (fun hc => by rw [hsp] at hc; cases hc) hE1
    · have hb : begin c o ends i s1 = (s1, []) := by unfold begin; rw [if_pos (.inl (by simpa using hsp))]
      rw [hb]
      exact hE1.cast (by simp [inFlight])
  have hi2 : o.spread = true → (begin c o ends i s1).1.started i = true := begin_started
  generalize begin c o ends i s1 = b at hS2 hE2 hi2 ⊢
  have hgiven : b.1.err i = 0 → b.1.given i = [] := by
    intro he
    by_cases hsp : o.spread = true
    · exact hS2.moved i (hi2 hsp) he
    · exact hS2.built (by simpa using hsp) i
  cases p with
  | fresh v initial =>
    refine ⟨admit_sound hS2 hi2, ?_⟩
    dsimp only
    refine (admit_even (o := o) (initial := initial) (v := v) (x := inFlight c (b.2 : Multiset (Pkt V)) + inFlight c rest) hgiven (hS2.tabled i)
      (hE2.cast (by simp only [Pkt.held]; abel))).cast ?_
    rw [outstanding_eq, inFlight_add, ← Multiset.coe_add, inFlight_add]; abel
  | known h k initial =>
    refine ⟨visit_sound hS2 hi2, ?_⟩
    dsimp only
    refine (visit_even (o := o) (initial := initial) (k := k) (x := inFlight c (b.2 : Multiset (Pkt V)) + inFlight c rest)
      (hE2.cast (by simp [Pkt.held]))).cast ?_
    rw [outstanding_eq, inFlight_add, ← Multiset.coe_add, inFlight_add]; abel

theorem good_inv {ends : Fin n → List (Nat × Nat)} {hn : 0 < n} {p₀ : Pkt V} {s₀ : Job n V} (h₀ : Good c o (s₀, {p₀})) :
    ∀ x, Bag.Reach (task c o ends hn) p₀ s₀ x → Good c o x := by
  intro x hx
  induction hx with
  | init => exact h₀
  | step hr hs ih =>
    cases hs with
    | env e s m => exact ⟨⟨ih.1.idle, ih.1.built, ih.1.moved, ih.1.tabled⟩, ih.2⟩
    | handle s p rest => exact good_handle ih

/-! ## The end -/

theorem tidy_bal (remote : Nat → Nat → Nat) (as : List (Node V)) (k : Nat) (w : World) (x : Multiset (Nat × Nat)) :
    Bal w (tidy c o remote as k w).2 (held c as + x) (held c (tidy c o remote as k w).1 + x) := by
  induction as generalizing k w x with
  | nil => exact Bal.refl w _
  | cons a as ih =>
    unfold tidy
    dsimp only
    have hl : (a.out.zipIdx.map fun e => (⟨e.1, remote k e.2⟩ : DedupAcc.Edge Nat V)).map DedupAcc.Edge.label = a.out := by
      rw [List.map_map]
      exact List.zipIdx_map_fst 0 a.out
    have h1 := DedupAcc.dedup_bal c o.eSame id (a.out.zipIdx.map fun e => ⟨e.1, remote k e.2⟩) w (owned c.vFree a.vertex + (held c as + x))
    rw [DedupAcc.labels, hl] at h1
    generalize dedup c o.eSame id (a.out.zipIdx.map fun e => (⟨e.1, remote k e.2⟩ : DedupAcc.Edge Nat V)) w = d at h1 ⊢
    refine (h1.cast ?_ rfl).trans ((ih (k + 1) d.2 (DedupAcc.labels c d.1 + owned c.vFree a.vertex + x)).cast ?_ ?_)
    · simp only [held, List.map_cons, List.sum_cons, Node.held]; abel
    · abel
    · simp only [held, List.map_cons, List.sum_cons, Node.held, DedupAcc.labels]; abel

theorem leave_bal (remote : Fin n → Nat → Nat → Nat) (s : Job n V) (i : Fin n) (x : Multiset (Nat × Nat)) :
    Bal s.world (leave c o remote s i).world (total c s + x) (total c (leave c o remote s i) + x) := by
  unfold leave
  dsimp only
  have h1 : ∀ y, Bal s.world (if s.err i = 0 ∧ o.sub = true then tidy c o (remote i) (s.nodes i) 0 (own i s) else (s.nodes i, own i s)).2 (held c (s.nodes i) + y)
      (held c (if s.err i = 0 ∧ o.sub = true then tidy c o (remote i) (s.nodes i) 0 (own i s) else (s.nodes i, own i s)).1 + y) := by
    intro y
    have h0 := Bal.err s.world (s.err i) (held c (s.nodes i) + y)
    split_ifs
    · exact h0.trans (tidy_bal (remote i) (s.nodes i) 0 _ y)
    · exact h0
  generalize (if s.err i = 0 ∧ o.sub = true then tidy c o (remote i) (s.nodes i) 0 (own i s) else (s.nodes i, own i s)) = t at h1 ⊢
  split_ifs
  · obtain ⟨a, e1, e2⟩ := SpawnAcc.allHeld_update c s.nodes i []
    refine ((h1 (a + allHeld c s.given + leaked c s.lost + x)).trans (freeNodes_bal c t.1 t.2 _)).cast ?_ ?_
    · simp only [total]; rw [e1]; abel
    · simp only [total, store]; rw [e2]; simp only [held, List.map_nil, List.sum_nil]; abel
  · obtain ⟨a, e1, e2⟩ := SpawnAcc.allHeld_update c s.nodes i t.1
    refine (h1 (a + allHeld c s.given + leaked c s.lost + x)).cast ?_ ?_
    · simp only [total]; rw [e1]; abel
    · simp only [total, store]; rw [e2]; abel

theorem leaveAll_bal (remote : Fin n → Nat → Nat → Nat) (s : Job n V) (x : Multiset (Nat × Nat)) :
    Bal s.world (leaveAll c o remote s).world (total c s + x) (total c (leaveAll c o remote s) + x) := by
  unfold leaveAll
  generalize List.finRange n = l
  induction l generalizing s with
  | nil => exact Bal.refl _ _
  | cons i l ih => exact (leave_bal remote s i x).trans (ih _)

theorem held_flat (c : Env) (f : Fin n → List (Node V)) : held c ((List.finRange n).flatMap f) = allHeld c f := by
  have : ∀ l : List (Fin n), held c (l.flatMap f) = (l.map fun i => held c (f i)).sum := by
    intro l
    induction l with
    | nil => simp [held]
    | cons i l ih => rw [List.flatMap_cons, held_append, ih]; simp
  rw [this, allHeld, ← List.ofFn_eq_map, List.sum_ofFn]

theorem finish_bal (s : Job n V) (pre post : Int) (x : Multiset (Nat × Nat)) :
    Bal s.world (finish c s pre post).2 (allHeld c s.nodes + x) (held c ((finish c s pre post).1.getD []) + x) := by
  have h0 := (Bal.err s.world (status s pre post) (held c (union s) + x)).cast (by rw [union, held_flat] : _ = allHeld c s.nodes + x) rfl
  have hz : held c ((none : Option (List (Node V))).getD []) + x = x := by simp [held]
  unfold finish
  dsimp only
  split_ifs
  · exact h0.trans ((freeNodes_bal c _ _ x).cast rfl hz.symm)
  · exact h0.trans ((alloc_bal c _ _).trans ((freeNodes_bal c _ _ x).cast rfl hz.symm))
  · exact h0.trans ((alloc_bal c _ _).trans ((Bal.raise _ _ _).trans ((freeNodes_bal c _ _ x).cast rfl hz.symm)))
  · exact h0.trans (alloc_bal c _ _)

theorem finishSpread_bal (s : Job n V) (f : Bool) (pre post : Int) (x : Multiset (Nat × Nat)) :
    Bal s.world (finishSpread c s f pre post).2 (allHeld c s.nodes + allHeld c s.given + x) (held c ((finishSpread c s f pre post).1.getD []) + x) := by
  have h0 := (Bal.err s.world (status s pre post) (held c (union s) + (held c (unspent s) + x))).cast
    (by rw [union, held_flat, unspent, held_flat]; abel : _ = allHeld c s.nodes + allHeld c s.given + x) rfl
  have hz : held c ((none : Option (List (Node V))).getD []) + x = x := by simp [held]
  unfold finishSpread
  dsimp only
  by_cases e1 : status s pre post ≠ 0
  · rw [if_pos e1]
    exact h0.trans ((freeNodes_bal c _ _ _).trans ((freeNodes_bal c _ _ x).cast rfl hz.symm))
  · rw [if_neg e1]
    have h1 := h0.trans ((freeNodes_bal c (unspent s) _ (held c (union s) + x)).cast (by abel) rfl)
    have h2 := h1.trans (Bal.raise _ (if s.killed ≠ 0 ∧ f = false then Build.intKil else 0) _)
    generalize (freeNodes c (unspent s) { s.world with err := status s pre post }).raise (if s.killed ≠ 0 ∧ f = false then Build.intKil else 0) = w2 at h2 ⊢
    split_ifs
    · exact h2.trans ((freeNodes_bal c _ _ x).cast rfl hz.symm)
    · exact h2

/-! ## Vertices to which nothing refers -/

/-- Workers have lost vertices only if one of them has an error, and none with a connector or in a build. -/
structure Careful (o : Ops V) (x : Job n V × Multiset (Pkt V)) : Prop where
  failed : x.1.lost ≠ [] → ∃ i, x.1.err i ≠ 0
  connector : o.sub = false → x.1.lost = []
  build : o.spread = false → x.1.lost = [] ∧ ∀ p ∈ x.2, ∃ v b, p = Pkt.fresh v b

theorem breakOut_connector (h : o.sub = false) (initial : Bool) (w : World) : (breakOut c o initial w).1.2 = [] := by
  unfold breakOut
  rw [if_pos h]

theorem freeEdges_sticky (es : List (Edge V)) {w : World} (h : w.err ≠ 0) : (freeEdges c es w).err = w.err := by
  unfold freeEdges
  induction es generalizing w with
  | nil => rfl
  | cons e es ih =>
    rw [List.foldl_cons]
    have h1 : (destroy c.fails c.vFree e.vertex (destroy c.fails c.eFree e.label w)).err = w.err := by
      rw [DedupAcc.destroy_sticky _ _ (by rw [DedupAcc.destroy_sticky _ _ h]; exact h), DedupAcc.destroy_sticky _ _ h]
    rw [ih (by rw [h1]; exact h), h1]

theorem scatterOut_sticky (es : List (Edge V)) {w : World} (h : w.err ≠ 0) : (scatterOut c o es w).2.err = w.err := by
  cases es with
  | nil => rfl
  | cons e es =>
    unfold scatterOut
    rw [if_pos h]
    exact freeEdges_sticky _ h

theorem breakOut_failed (initial : Bool) (w : World) (h : (breakOut c o initial w).1.2 ≠ []) : (breakOut c o initial w).2.err ≠ 0 := by
  unfold breakOut at h ⊢
  by_cases hsub : o.sub = false
  · rw [if_pos hsub] at h; exact absurd rfl h
  · rw [if_neg hsub] at h ⊢
    by_cases hi : initial = true
    · rw [if_pos hi] at h; exact absurd rfl h
    · rw [if_neg hi] at h ⊢
      dsimp only at h ⊢
      generalize call c o (record c o w) = k at h ⊢
      generalize (if k.1.any (fun e => e.vertex.isNone) = true then k.2.raise (-1714) else k.2) = w1 at h ⊢
      generalize dedup c o.eSame addr (k.1.map fun e => (⟨e.label, e.vertex⟩ : DedupAcc.Edge (Option (Obj V)) V)) w1 = d at h ⊢
      by_cases he : d.2.err ≠ 0
      · rw [scatterOut_sticky _ he]; exact he
      · rw [if_neg he] at h; exact absurd rfl h

theorem update_sticky {f : Fin n → Int} {i : Fin n} {e : Int} (h : f i ≠ 0 → e ≠ 0) : ∀ j, f j ≠ 0 → Function.update f i e j ≠ 0 := by
  intro j hj
  by_cases hji : j = i
  · subst hji; rw [Function.update_self]; exact h hj
  · rwa [Function.update_of_ne hji]

theorem begin_sticky {ends : Fin n → List (Nat × Nat)} {s : Job n V} {i : Fin n} : ∀ j, s.err j ≠ 0 → (begin c o ends i s).1.err j ≠ 0 := by
  unfold begin
  by_cases h0 : o.spread = false ∨ s.started i = true
  · rw [if_pos h0]; exact fun j h => h
  · rw [if_neg h0]
    dsimp only
    have h1 : s.err i ≠ 0 → (alloc c (own i { s with started := Function.update s.started i true })).err ≠ 0 := fun h e => h (alloc_zero e)
    split_ifs with he
    · exact update_sticky h1
    · exact update_sticky fun h => absurd (h1 h) he

theorem begin_lost {ends : Fin n → List (Nat × Nat)} {s : Job n V} {i : Fin n} : (begin c o ends i s).1.lost = s.lost := by
  unfold begin
  by_cases h0 : o.spread = false ∨ s.started i = true
  · rw [if_pos h0]
  · rw [if_neg h0]
    dsimp only
    split_ifs <;> rfl

theorem admit_lost {s : Job n V} {i : Fin n} {v : Option (Obj V)} {initial : Bool} : (admit c o i s v initial).1.lost = s.lost := by
  unfold admit
  by_cases e1 : s.err i ≠ 0 ∨ s.stop i = true
  · rw [if_pos e1]; rfl
  · rw [if_neg e1]
    by_cases e2 : (alloc c (own i s)).err ≠ 0
    · rw [if_pos e2]; rfl
    · rw [if_neg e2]
      dsimp only
      generalize walk o v (s.nodes i) (s.tab i (o.vHash v)) (alloc c (own i s)) = r
      by_cases e3 : r.2.err ≠ 0
      · rw [if_pos e3]; rfl
      · rw [if_neg e3]
        split
        · rfl
        · by_cases e4 : o.limit ≠ 0 ∧ o.limit ≤ s.count i
          · rw [if_pos e4]
            obtain ⟨sample, stop, e⟩ := poll_eq (store i s (r.2.raise Build.intOvf)) i
            rw [e]; rfl
          · rw [if_neg e4]; rfl

theorem admit_sticky {s : Job n V} {i : Fin n} {v : Option (Obj V)} {initial : Bool} : ∀ j, s.err j ≠ 0 → (admit c o i s v initial).1.err j ≠ 0 := by
  intro j hj
  unfold admit
  by_cases e1 : s.err i ≠ 0 ∨ s.stop i = true
  · rw [if_pos e1]
    exact update_sticky (f := s.err) (i := i) (fun h => by rw [DedupAcc.destroy_sticky _ _ (by exact h)]; exact h) j hj
  · rw [if_neg e1]
    have h0 : s.err i = 0 := by
      by_contra hc
      exact e1 (.inl hc)
    have hji : j ≠ i := by rintro rfl; exact hj h0
    by_cases e2 : (alloc c (own i s)).err ≠ 0
    · rw [if_pos e2]; simpa [discard, halt, store, hji] using hj
    · rw [if_neg e2]
      dsimp only
      generalize walk o v (s.nodes i) (s.tab i (o.vHash v)) (alloc c (own i s)) = r
      by_cases e3 : r.2.err ≠ 0
      · rw [if_pos e3]; simpa [discard, halt, store, hji] using hj
      · rw [if_neg e3]
        split
        · simpa [store, hji] using hj
        · by_cases e4 : o.limit ≠ 0 ∧ o.limit ≤ s.count i
          · rw [if_pos e4]
            obtain ⟨sample, stop, e⟩ := poll_eq (store i s (r.2.raise Build.intOvf)) i
            rw [e]; simpa [discard, halt, store, hji] using hj
          · rw [if_neg e4]; simpa [store, hji] using hj

theorem fresh_scatterOut (es : List (Edge V)) (w : World) : ∀ p ∈ (scatterOut c o es w).1.2, ∃ v b, p = Pkt.fresh v b := by
  induction es generalizing w with
  | nil => simp [scatterOut]
  | cons e es ih =>
    unfold scatterOut
    split_ifs
    · simp
    · simp
    · intro p hp
      rcases List.mem_cons.1 hp with rfl | hp
      · exact ⟨_, _, rfl⟩
      · exact ih _ p hp

theorem fresh_admit {s : Job n V} {i : Fin n} {v : Option (Obj V)} {initial : Bool} : ∀ p ∈ (admit c o i s v initial).2, ∃ v b, p = Pkt.fresh v b := by
  unfold admit
  by_cases e1 : s.err i ≠ 0 ∨ s.stop i = true
  · rw [if_pos e1]; simp
  · rw [if_neg e1]
    by_cases e2 : (alloc c (own i s)).err ≠ 0
    · rw [if_pos e2]; simp
    · rw [if_neg e2]
      dsimp only
      generalize walk o v (s.nodes i) (s.tab i (o.vHash v)) (alloc c (own i s)) = r
      by_cases e3 : r.2.err ≠ 0
      · rw [if_pos e3]; simp
      · rw [if_neg e3]
        split
        · dsimp only
          unfold reachExtant
          dsimp only
          split_ifs
          · simp
          · simp
          · exact fresh_scatterOut _ _
        · by_cases e4 : o.limit ≠ 0 ∧ o.limit ≤ s.count i
          · rw [if_pos e4]; simp
          · rw [if_neg e4]
            dsimp only
            unfold reachNew
            generalize call c o (if o.sub = true ∧ initial = false then record c o r.2 else r.2) = k
            dsimp only
            by_cases f1 : k.2.err ≠ 0
            · rw [if_pos f1]; simp
            · rw [if_neg f1]
              by_cases f2 : (alloc c k.2).err ≠ 0
              · rw [if_pos f2]; simp
              · rw [if_neg f2]
                generalize (if s.queued i = true then alloc c k.2 else alloc c (alloc c k.2)) = w2
                by_cases f3 : w2.err ≠ 0
                · rw [if_pos f3]; simp
                · rw [if_neg f3]; exact fresh_scatterOut _ _

theorem visit_careful {s : Job n V} {i : Fin n} {k : Nat} {initial : Bool} (h1 : s.lost ≠ [] → ∃ i, s.err i ≠ 0) (h2 : o.sub = false → s.lost = []) :
    ((visit c o i s k initial).1.lost ≠ [] → ∃ j, (visit c o i s k initial).1.err j ≠ 0) ∧ (o.sub = false → (visit c o i s k initial).1.lost = []) := by
  unfold visit
  by_cases e1 : s.err i ≠ 0
  · rw [if_pos e1]; exact ⟨h1, h2⟩
  · rw [if_neg e1]
    have h0 : s.err i = 0 := by simpa using e1
    split
    · exact ⟨h1, h2⟩
    · rename_i a ha
      by_cases e2 : a.out ≠ []
      · rw [if_pos e2]; exact ⟨h1, h2⟩
      · rw [if_neg e2]
        dsimp only
        have h3 := breakOut_failed (c := c) (o := o) initial (own i s)
        have h4 := fun h => breakOut_connector (c := c) (o := o) h initial (own i s)
        generalize breakOut c o initial (own i s) = y at h3 h4 ⊢
        have h5 : s.lost ++ y.1.2 ≠ [] → ∃ j, Function.update s.err i y.2.err j ≠ 0 := by
          intro h
          by_cases hy : y.1.2 = []
          · rw [hy, List.append_nil] at h
            obtain ⟨j, hj⟩ := h1 h
            have hji : j ≠ i := by rintro rfl; exact hj h0
            exact ⟨j, by rwa [Function.update_of_ne hji]⟩
          · exact ⟨i, by rw [Function.update_self]; exact h3 hy⟩
        have h6 : o.sub = false → s.lost ++ y.1.2 = [] := fun h => by rw [h2 h, h4 h]; rfl
        split_ifs
        · exact ⟨h5, h6⟩
        · exact ⟨h5, h6⟩

theorem careful_handle {ends : Fin n → List (Nat × Nat)} {hn : 0 < n} {s : Job n V} {p : Pkt V} {rest : Multiset (Pkt V)} (ih : Careful o (s, p ::ₘ rest)) :
    Careful o (((task c o ends hn).handle ((task c o ends hn).dest p) s p).1, Bag.produced (task c o ends hn) s p + rest) := by
  have hst : ((task c o ends hn).handle ((task c o ends hn).dest p) s p).1 =
        (match p with
          | .fresh v initial => admit c o ((task c o ends hn).dest p) (begin c o ends ((task c o ends hn).dest p) (poll s ((task c o ends hn).dest p))).1 v initial
          | .known _ k initial => visit c o ((task c o ends hn).dest p) (begin c o ends ((task c o ends hn).dest p) (poll s ((task c o ends hn).dest p))).1 k initial).1 := rfl
  have hpr : Bag.produced (task c o ends hn) s p =
      (((begin c o ends ((task c o ends hn).dest p) (poll s ((task c o ends hn).dest p))).2 ++
        (match p with
          | .fresh v initial => admit c o ((task c o ends hn).dest p) (begin c o ends ((task c o ends hn).dest p) (poll s ((task c o ends hn).dest p))).1 v initial
          | .known _ k initial => visit c o ((task c o ends hn).dest p) (begin c o ends ((task c o ends hn).dest p) (poll s ((task c o ends hn).dest p))).1 k initial).2 :
        List (Pkt V)) : Multiset (Pkt V)) := by
    cases p <;> simp [Bag.produced, task, handle]
  rw [hst, hpr]
  generalize (task c o ends hn).dest p = i
  obtain ⟨sample, stop, e⟩ := poll_eq s i
  rw [e]
  have a1 : s.lost ≠ [] → ∃ i, s.err i ≠ 0 := ih.failed
  have a2 : o.sub = false → s.lost = [] := ih.connector
  have b1 : (begin c o ends i { s with sample := sample, stop := stop }).1.lost ≠ [] →
      ∃ j, (begin c o ends i { s with sample := sample, stop := stop }).1.err j ≠ 0 := by
    rw [begin_lost]
    intro h
    obtain ⟨j, hj⟩ := a1 h
    exact ⟨j, begin_sticky j hj⟩
  have b2 : o.sub = false → (begin c o ends i { s with sample := sample, stop := stop }).1.lost = [] := by rw [begin_lost]; exact a2
  have b3 : o.spread = false → (begin c o ends i { s with sample := sample, stop := stop }) = ({ s with sample := sample, stop := stop }, []) := by
    intro h; unfold begin; rw [if_pos (.inl h)]
  generalize begin c o ends i { s with sample := sample, stop := stop } = b at b1 b2 b3 ⊢
  cases p with
  | fresh v initial =>
    refine ⟨fun h => ?_, fun h => ?_, fun h => ?_⟩
    · dsimp only at h ⊢
      rw [admit_lost] at h
      obtain ⟨j, hj⟩ := b1 h
      exact ⟨j, admit_sticky j hj⟩
    · dsimp only; rw [admit_lost]; exact b2 h
    · dsimp only
      rw [admit_lost, b3 h]
      refine ⟨(ih.build h).1, fun q hq => ?_⟩
      rcases Multiset.mem_add.1 hq with hq | hq
      · simp only [List.nil_append, Multiset.mem_coe] at hq
        exact fresh_admit q hq
      · exact (ih.build h).2 q (Multiset.mem_cons_of_mem hq)
  | known hh k initial =>
    have hv := visit_careful (c := c) (o := o) (i := i) (k := k) (initial := initial) b1 b2
    refine ⟨hv.1, hv.2, fun h => ?_⟩
    obtain ⟨v, b, hc⟩ := (ih.build h).2 (.known hh k initial) (Multiset.mem_cons_self _ _)
    cases hc

theorem careful_inv {ends : Fin n → List (Nat × Nat)} {hn : 0 < n} {p₀ : Pkt V} {s₀ : Job n V} (h₀ : Careful o (s₀, {p₀})) :
    ∀ x, Bag.Reach (task c o ends hn) p₀ s₀ x → Careful o x := by
  intro x hx
  induction hx with
  | init => exact h₀
  | step hr hs ih =>
    cases hs with
    | env e s m => exact ⟨ih.failed, ih.connector, ih.build⟩
    | handle s p rest => exact careful_handle ih

theorem leave_sticky (remote : Fin n → Nat → Nat → Nat) (s : Job n V) (i j : Fin n) (h : s.err j ≠ 0) : (leave c o remote s i).err j ≠ 0 := by
  unfold leave
  dsimp only
  by_cases hi : s.err i = 0 ∧ o.sub = true
  · have hji : j ≠ i := by rintro rfl; exact h hi.1
    split_ifs <;> simpa [store, hji] using h
  · rw [if_neg hi]
    dsimp only
    split_ifs with h1
    · exact update_sticky (f := s.err) (i := i) (fun _ => by
        have : ∀ (as : List (Node V)) (w : World), w.err ≠ 0 → (freeNodes c as w).err ≠ 0 := by
          intro as w hw he
          have hl : ∀ (ls : List (Option (Obj V))) (w : World), w.err ≠ 0 → (SpawnAcc.freeLabels c ls w).err ≠ 0 := by
            intro ls
            induction ls with
            | nil => exact fun w h => h
            | cons l ls ih => exact fun w h => ih _ (by rw [DedupAcc.destroy_sticky _ _ h]; exact h)
          induction as generalizing w with
          | nil => exact hw he
          | cons a as ih =>
            refine ih _ ?_ he
            have := hl a.out w hw
            unfold SpawnAcc.freeNode
            rw [DedupAcc.destroy_sticky _ _ this]; exact this
        exact this _ _ h1) j h
    · exact update_sticky (f := s.err) (i := i) (fun h => h) j h

theorem leaveAll_sticky (remote : Fin n → Nat → Nat → Nat) (s : Job n V) (j : Fin n) (h : s.err j ≠ 0) : (leaveAll c o remote s).err j ≠ 0 := by
  unfold leaveAll
  generalize List.finRange n = l
  induction l generalizing s with
  | nil => exact h
  | cons i l ih => exact ih _ (leave_sticky remote s i j h)

theorem leave_same (remote : Fin n → Nat → Nat → Nat) (s : Job n V) (i : Fin n) :
    (leave c o remote s i).lost = s.lost ∧ (leave c o remote s i).given = s.given ∧ (leave c o remote s i).killed = s.killed := by
  unfold leave
  dsimp only
  generalize (if s.err i = 0 ∧ o.sub = true then tidy c o (remote i) (s.nodes i) 0 (own i s) else (s.nodes i, own i s)) = t
  split_ifs <;> exact ⟨rfl, rfl, rfl⟩

theorem leaveAll_same (remote : Fin n → Nat → Nat → Nat) (s : Job n V) :
    (leaveAll c o remote s).lost = s.lost ∧ (leaveAll c o remote s).given = s.given ∧ (leaveAll c o remote s).killed = s.killed := by
  unfold leaveAll
  generalize List.finRange n = l
  induction l generalizing s with
  | nil => exact ⟨rfl, rfl, rfl⟩
  | cons i l ih =>
    have h1 := ih (leave c o remote s i)
    have h2 := leave_same (c := c) (o := o) remote s i
    exact ⟨h1.1.trans h2.1, h1.2.1.trans h2.2.1, h1.2.2.trans h2.2.2⟩

end Cru.BuildAcc
