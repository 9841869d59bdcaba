import Verif.Proofs.StretchAcc
import Verif.Props.Stretch

/-!
# C140: storage in stretching

`Reclaims o x limit hn killable g y a f d` says that some execution of `cru_stretched` on the graph `g` by `n` workers, in which no user function
raises an error, ends with the outcome `y` after the vertices and labels `a` were passed to `cru_stretch`, those in `f` were freed, and nothing
refers to those in `d` any more.  `contents` and `returned` are in `Spec/StretchAcc.lean`.
-/

namespace Cru.Stretch

open Net Dedup

variable {n : Nat} {N V L P : Type} [DecidableEq V] [DecidableEq L]
variable {o : Orders V L} {x : Stretcher V L P} {hn : 0 < n} {limit : Nat} {killable : Bool}

/-- **C140.** Every vertex and label of the given graph and every one passed to `cru_stretch` is in the graph returned, is freed exactly once, or is lost. -/
theorem C140_account {g : Gr N V L} (ho : o.Lawful) (hw : g.WF) (hd : Distinct o g) {y : Outcome V L} {a f d : Multiset (V ⊕ L)}
    (h : Reclaims o x limit hn killable g y a f d) : contents g + a = returned y + f + d := by
  induction h with
  | again g inc addr y z ms r a f d hdu ha hy hb hs hfix ht hz hzk hms hc hr ih =>
    have hF := full_final (runs_full ho ha hw hd hy) hs
    have hE := hF.expands ho hw hc
    have h1 := ih hE.wf hE.unique
    have h2 := hF.account (runs_ledger ho ha hw hd hy) ho hw
    rw [contents_result] at h1
    rw [← left_add hc.nodup (fun c h => hF.inv.mem_stored.2 (hF.kept hw ((hc.mem c).1 h))) (hF.inv.nodup_stored ho)] at h2
    rw [← add_assoc, h2]
    calc _ = (storage g y.mem ms + a) + (storage g y.mem (left y.mem ms) + spent g y.mem) := by abel
      _ = _ := by rw [h1]; abel
  | killed g inc addr y z hdu ha hy hb hs hfix hz hkill hzk hsw =>
    have hF := full_final (runs_full ho ha hw hd hy) hs
    obtain ⟨h1, h2⟩ := prunes_kept hz
    rw [hF.account (runs_ledger ho ha hw hd hy) ho hw, ← left_add h1 (fun c h => hF.inv.mem_stored.2 (hF.kept hw (h2 c h))) (hF.inv.nodup_stored ho)]
    show _ = 0 + _ + _
    abel
  | done g inc addr y z hdu ha hy hb hs hfix hz hkill hzk =>
    have hF := full_final (runs_full ho ha hw hd hy) hs
    obtain ⟨h1, h2⟩ := prunes_kept hz
    rw [hF.account (runs_ledger ho ha hw hd hy) ho hw, ← left_add h1 (fun c h => hF.inv.mem_stored.2 (hF.kept hw (h2 c h))) (hF.inv.nodup_stored ho)]
    show _ = contents (result g y.mem _) + _ + _
    rw [contents_result]
    abel

/-- **C140.** In a pass, whether it fails or not, no node or edge is freed twice, and none that's freed is referred to by a list of survivors or the list of
outgoing edges of a node on one.  The nodes freed were created by calls to `cru_stretch`. -/
theorem C140_once [DecidableEq N] {g : Gr N V L} {ask : N → L × N → Answer V L} {addr : Nd N V L → Nat} (ho : o.Lawful) (ha : Function.Injective addr) (hw : g.WF)
    (hd : Distinct o g) {y : Job n N V L} (hy : Runs o ask g addr limit hn y) :
    (stored y.mem + (y.mem.dead : Multiset (Nd N V L))).Nodup ∧
    ((y.mem.freed : Multiset (Edge N V L)) + (stored y.mem).bind fun c => (y.mem.out c : Multiset (Edge N V L))).Nodup ∧ ∀ c ∈ y.mem.dead, c.isNew = true := by
  have hf := runs_full ho ha hw hd hy
  obtain ⟨h1, h2⟩ := (runs_ledger ho ha hw hd hy).nodup hf.inv ho
  exact ⟨h1, h2, fun c hc => (hf.inv.dead c hc).1⟩

/-- **C140.** Without `st_fix`, nothing is lost if a graph is returned. -/
theorem C140_pass {g : Gr N V L} (hx : x.fix = false) {N' : Type} {r : Gr N' V L} {a f d : Multiset (V ⊕ L)}
    (h : Reclaims o x limit hn killable g (.ok r) a f d) : d = 0 := by
  cases h with
  | again _ inc addr y z ms r a f d hdu ha hy hb hs hfix => rw [hx] at hfix; cases hfix
  | done => rfl

/-- **C140.** The executions accounted for include all that return a graph. -/
theorem C140_every {g : Gr N V L} {N' : Type} {r : Gr N' V L} :
    Stretched o x limit hn killable g (.ok r) ↔ ∃ a f d, Reclaims o x limit hn killable g (.ok r) a f d := by
  constructor
  · intro h
    generalize hy : Outcome.ok r = y at h
    induction h with
    | stopped => cases hy
    | bad => cases hy
    | failed => cases hy
    | again g inc addr y z ms r hdu ha hy hb hs hfix ht hz hzk hms hc hr ih =>
      obtain ⟨a, f, d, h⟩ := ih hy
      exact ⟨_, _, _, .again g inc addr _ z ms r a f d hdu ha ‹_› hb hs hfix ht hz hzk hms hc h⟩
    | killed => cases hy
    | done g inc addr y z hdu ha hr hb hs hfix hz hkill hzk =>
      exact ⟨_, _, _, .done g inc addr y z hdu ha hr hb hs hfix hz hkill hzk⟩
  · rintro ⟨a, f, d, h⟩
    generalize Outcome.ok r = y at h ⊢
    induction h with
    | again g inc addr y z ms r a f d hdu ha hy hb hs hfix ht hz hzk hms hc hr ih => exact .again g inc addr y z ms r hdu ha hy hb hs hfix ht hz hzk hms hc ih
    | killed g inc addr y z hdu ha hy hb hs hfix hz hkill hzk hsw => exact .killed g inc addr y z hdu ha hy hb hs hfix hz hkill hzk hsw
    | done g inc addr y z hdu ha hy hb hs hfix hz hkill hzk => exact .done g inc addr y z hdu ha hy hb hs hfix hz hkill hzk

/-- **C140.** With `st_fix`, if every edge to a vertex other than the base is deleted in a pass in which another vertex is created, then that vertex is lost. -/
theorem C140_leak {g : Gr N V L} (ho : o.Lawful) (hw : g.WF) (hd : Distinct o g) (hx : x.fix = true) {m : N} (hm : m ∈ g.nodes) (hmb : m ≠ g.base)
    (hnew : ∀ (_ : DecidableEq N) (inc : N → List (L × N)), ({ g with inn := inc } : Gr N V L).Duplex → Creates o g (x.ask g inc))
    (hcut : ∀ (_ : DecidableEq N) (inc : N → List (L × N)), ∀ u l w, Made g (x.ask g inc) u l w → ¬ o.Same w (g.vertex m)) {y : Outcome V L}
    {a f d : Multiset (V ⊕ L)} (h : Reclaims o x limit hn killable g y a f d) : .inl (g.vertex m) ∈ d := by
  cases h with
  | again _ inc addr y z ms r a f d hdu ha hy hb hs hfix ht hz hzk hms hc hr =>
    have hF := full_final (runs_full ho ha hw hd hy) hs
    have hE := hF.expands ho hw hc
    refine Multiset.mem_add.2 (.inl (mem_storage (c := .old m) ?_))
    refine Multiset.mem_filter.2 ⟨hF.inv.mem_stored.2 ((hF.inv.mark m).1 (hF.all m ((hw.reach _).1 hm))), fun hmem => ?_⟩
    rcases Relation.ReflTransGen.cases_tail ((hc.mem _).1 hmem) with h | ⟨c, h1, h2⟩
    · cases h; exact hmb rfl
    · obtain ⟨e, h3, h4⟩ := List.mem_map.1 h2
      obtain ⟨u, w, h5, -, h6⟩ := hE.sound c ((hc.mem _).2 h1) e h3
      rw [h4] at h6
      exact hcut inferInstance inc _ _ _ h5 h6
  | killed _ inc addr y z hdu ha hy hb hs hfix hz hkill hzk hsw =>
    exact absurd ⟨hx, (total_zero ho hw (runs_full ho ha hw hd hy) hs).2 (hnew _ inc hdu)⟩ hfix
  | done _ inc addr y z hdu ha hy hb hs hfix hz hkill hzk =>
    exact absurd ⟨hx, (total_zero ho hw (runs_full ho ha hw hd hy) hs).2 (hnew _ inc hdu)⟩ hfix

/-- **C140.** If the job is killed during the last run of the pruning task, the vertices it's got to are lost, which include the base. -/
theorem C140_killed {g : Gr N V L} {e : Int} {a f d : Multiset (V ⊕ L)} (h : Reclaims o x limit hn killable g (.error e) a f d) :
    e = Build.intKil ∧ .inl (g.vertex g.base) ∈ d := by
  generalize hy : Outcome.error e = y at h
  induction h with
  | again g inc addr y z ms r a f d hdu ha hy' hb hs hfix ht hz hzk hms hc hr ih =>
    exact ⟨(ih hy).1, Multiset.mem_add.2 (.inr (ih hy).2)⟩
  | killed g inc addr y z hdu ha hy' hb hs hfix hz hkill hzk hsw =>
    cases hy
    refine ⟨rfl, mem_storage (c := .old g.base) ?_⟩
    obtain ⟨s, h1, h2, rfl⟩ := hz
    rcases Trav.first _ (Rover.done_bag hn h1 h2) with ⟨h, -⟩ | h
    · exact absurd h (by simp)
    · exact Multiset.mem_coe.2 (List.mem_flatMap.2 ⟨_, List.mem_finRange _, h⟩)
  | done => cases hy

/-- **C140.** With one worker, if some execution returns a graph, then some execution that's killed loses the base. -/
theorem C140_killable {g : Gr N V L} (ho : o.Lawful) (hw : g.WF) (hd : Distinct o g) {N' : Type} {r : Gr N' V L}
    (h : Stretched o x limit Nat.one_pos false g (.ok r)) :
    ∃ a f d, Reclaims o x limit Nat.one_pos true g (.error Build.intKil) a f d ∧ .inl (g.vertex g.base) ∈ d := by
  suffices ∃ a f d, Reclaims o x limit Nat.one_pos true g (.error Build.intKil) a f d by
    obtain ⟨a, f, d, h⟩ := this
    exact ⟨a, f, d, h, (C140_killed h).2⟩
  generalize hy : Outcome.ok r = y at h
  induction h with
  | stopped => cases hy
  | bad => cases hy
  | failed => cases hy
  | again g inc addr y z ms r hdu ha hy' hb hs hfix ht hz hzk hms hc hr ih =>
    have hE := (full_final (runs_full ho ha hw hd hy') hs).expands ho hw hc
    obtain ⟨a, f, d, h⟩ := ih hE.wf hE.unique hy
    exact ⟨_, _, _, .again g inc addr _ z ms _ a f d hdu ha hy' hb hs hfix ht hz (fun h => rfl) hms hc h⟩
  | killed => cases hy
  | done g inc addr y z₀ hdu ha hr hb hs hfix hz hkill hzk =>
    have hF := full_final (runs_full ho ha hw hd hr) hs
    obtain ⟨z, hz, hdz, -, hkz⟩ := Trav.killed_few (fun (_ : Fin 1) (_ : Unit) _ => ((), 0)) (fun m => o.hash (vertex g m)) Nat.one_pos () (a := Nd.old g.base)
      (next := fun m => (ends y.mem m).map fun e => e.2) (ms := (List.finRange 1).flatMap fun i => (y.mem.tab i).map Entry.node) (fun m h => by
        obtain ⟨a, h1, rfl⟩ := hF.kept hw h
        exact List.mem_flatMap.2 ⟨_, List.mem_finRange _, List.mem_map.2 ⟨a, h1, rfl⟩⟩)
      (fun s => s.killed = 1) rfl (by
        intro i s m hs
        unfold Trav.handle
        obtain ⟨sample, stop, e, -⟩ := Trav.poll_eq s i
        rw [e]
        dsimp only
        split_ifs <;> exact hs)
    exact ⟨_, _, _, .killed g inc addr y z.g hdu ha hr hb hs hfix ⟨z, hz, hdz, rfl⟩ rfl (by rw [hkz]; decide) (by rintro ⟨h, -⟩; omega)⟩

/-! ## Examples -/

/-- As in `pair`, with another edge from the origin to a third vertex. -/
def forked : Gr Nat Nat Bool where
  nodes := [0, 1, 2]
  base := 0
  vertex m := if m = 2 then 5 else 2 * m
  out m := if m = 0 then [(true, 1), (true, 2)] else if m = 1 then [(false, 0)] else []
  inn _ := []

/-- The property of a vertex is the vertex.  Edges from `p` to `p + 2` are replaced by paths by way of `p + 1`, and those to 5 are deleted. -/
def cutter (fix : Bool) : Stretcher Nat Bool Nat :=
  ⟨fix, fun p l q => ⟨0, q == p + 2 || q == 5, if q = p + 2 then [⟨l, p + 1, !l⟩] else []⟩, fun v _ _ => v⟩

theorem forked_wf : forked.WF := wf_range (k := 3) rfl rfl (by decide) (by decide) (by decide)

theorem forked_distinct : Distinct plain forked := by
  unfold Distinct forked Orders.Same plain
  decide

theorem forked_edges : ∀ m ∈ forked.nodes, ∀ e ∈ forked.out m, m = 0 ∧ e = (true, 1) ∨ m = 0 ∧ e = (true, 2) ∨ m = 1 ∧ e = (false, 0) := by decide

theorem cutter_requested {fix : Bool} {inc : Nat → List (Bool × Nat)} {v : Nat} (h : Requested forked ((cutter fix).ask forked inc) v) : v = 1 := by
  obtain ⟨m, hm, e, he, q, hq, rfl⟩ := h
  rcases forked_edges m hm e he with ⟨rfl, rfl⟩ | ⟨rfl, rfl⟩ | ⟨rfl, rfl⟩ <;> simp [Stretcher.ask, cutter, forked] at hq
  rw [hq]

theorem cutter_creates (fix : Bool) (inc : Nat → List (Bool × Nat)) : Creates plain forked ((cutter fix).ask forked inc) :=
  ⟨1, ⟨0, by decide, (true, 1), by decide, ⟨true, 1, false⟩, by simp [Stretcher.ask, cutter, forked], rfl⟩, by unfold Orders.Same plain; decide⟩

theorem cutter_made {fix : Bool} {inc : Nat → List (Bool × Nat)} {u w : Nat} {l : Bool} (h : Made forked ((cutter fix).ask forked inc) u l w) :
    w ≠ 5 ∧ w ≠ u + 2 := by
  cases h with
  | @keep m e hm he hd =>
    rcases forked_edges m hm e he with ⟨rfl, rfl⟩ | ⟨rfl, rfl⟩ | ⟨rfl, rfl⟩ <;> simp [Stretcher.ask, cutter, forked] at hd ⊢
  | @ante m e q hm he hq =>
    rcases forked_edges m hm e he with ⟨rfl, rfl⟩ | ⟨rfl, rfl⟩ | ⟨rfl, rfl⟩ <;> simp [Stretcher.ask, cutter, forked] at hq
    simp [hq, forked]
  | @post m e q hm he hq =>
    rcases forked_edges m hm e he with ⟨rfl, rfl⟩ | ⟨rfl, rfl⟩ | ⟨rfl, rfl⟩ <;> simp [Stretcher.ask, cutter, forked] at hq
    simp [hq, forked]

theorem cutter_safe (fix : Bool) (inc : Nat → List (Bool × Nat)) : ¬ Clash plain forked ((cutter fix).ask forked inc) := by
  rintro ⟨m, hm, w, hw, i, j, k, l, e, f, q, r, he, -, hq, -, -, -, -, h⟩
  have h1 := cutter_requested ⟨m, hm, e, List.mem_of_getElem? he, q, List.mem_of_getElem? hq, rfl⟩
  rw [h1] at h
  have : ∀ w ∈ forked.nodes, forked.vertex w ≠ 1 := by decide
  exact this w hw (by simpa [Orders.Same, plain] using h : 1 = _).symm

theorem cutter_fine (fix : Bool) {N : Type} [DecidableEq N] (g : Gr N Nat Bool) (inc : N → List (Bool × N)) (e : Int) : ¬ Raised plain g ((cutter fix).ask g inc) e := by
  rintro ⟨h0, ⟨m, -, f, -, h⟩ | ⟨u, w, -, -, h⟩⟩
  · exact h0 h.symm
  · exact h0 h.symm

/-- With any number of workers, two passes are made. -/
theorem cutter_stretched (hn : 0 < n) : ∃ (N' : Type) (r : Gr N' Nat Bool), Stretched plain (cutter true) 0 hn false forked (.ok r) := by
  obtain ⟨inc, hi⟩ := exists_duplex forked forked_wf.nodup
  obtain ⟨-, ⟨y, hy⟩, h⟩ := C36_terminates (ask := (cutter true).ask forked inc) plain_lawful address_injective forked_wf forked_distinct 0 hn
  have hf := runs_full plain_lawful address_injective forked_wf forked_distinct hy
  have hb : y.mem.bad = false := by
    cases hb : y.mem.bad with
    | false => rfl
    | true => exact absurd (bad_clash hf.inv plain_lawful forked_wf hb) (cutter_safe _ _)
  have hs : status y = 0 := by
    by_contra hs
    obtain ⟨i, hi⟩ := status_mem hs
    rcases blamed_raised hf.inv plain_lawful forked_wf (by rw [hi]; exact hs) (hf.errs i (by rw [hi]; exact hs)) with h | ⟨-, h, -⟩
    · exact absurd h (cutter_fine _ _ _ _)
    · exact h rfl
  obtain ⟨-, z, hz, hz0⟩ := h y hy hs
  have hc := prunes_covers hz hz0
  have hE := (full_final hf hs).expands plain_lawful forked_wf hc
  have ht : total y ≠ 0 := (total_zero plain_lawful forked_wf hf hs).2 (cutter_creates _ _)
  haveI : Countable (Nd Nat Nat Bool) := address_injective.countable
  obtain ⟨addr, ha⟩ := exists_address (N := Nd Nat Nat Bool) (V := Nat) (L := Bool)
  obtain ⟨inc', hi'⟩ := exists_duplex (result forked y.mem (Dedup.kept z)) hE.wf.nodup
  obtain ⟨-, ⟨y', hy'⟩, h'⟩ := C36_terminates (ask := (cutter true).ask (result forked y.mem (Dedup.kept z)) inc') plain_lawful ha hE.wf hE.unique 0 hn
  have hf' := runs_full plain_lawful ha hE.wf hE.unique hy'
  have hreq : ∀ v, ¬ Requested (result forked y.mem (Dedup.kept z)) ((cutter true).ask (result forked y.mem (Dedup.kept z)) inc') v := by
    rintro v ⟨m, hm, e, he, q, hq, -⟩
    obtain ⟨u, w, h1, h2, h3⟩ := hE.sound m hm e he
    have h2 : u = (result forked y.mem (Dedup.kept z)).vertex m := by simpa [Orders.Same, plain] using h2
    have h3 : w = (result forked y.mem (Dedup.kept z)).vertex e.2 := by simpa [Orders.Same, plain] using h3
    have h4 := (cutter_made h1).2
    rw [h2, h3] at h4
    simp only [Stretcher.ask, cutter] at hq
    rw [if_neg h4] at hq
    cases hq
  have hb' : y'.mem.bad = false := by
    cases hb : y'.mem.bad with
    | false => rfl
    | true =>
      obtain ⟨m, hm, w, hw, i, j, k, l, e, f, q, r, he, -, hq, -⟩ := bad_clash hf'.inv plain_lawful hE.wf hb
      exact absurd ⟨m, hm, e, List.mem_of_getElem? he, q, List.mem_of_getElem? hq, rfl⟩ (hreq q.vertex)
  have hs' : status y' = 0 := by
    by_contra hs
    obtain ⟨i, hi⟩ := status_mem hs
    rcases blamed_raised hf'.inv plain_lawful hE.wf (by rw [hi]; exact hs) (hf'.errs i (by rw [hi]; exact hs)) with h | ⟨-, h, -⟩
    · exact absurd h (cutter_fine _ _ _ _)
    · exact h rfl
  obtain ⟨-, z', hz', hz0'⟩ := h' y' hy' hs'
  refine ⟨_, _, .again forked inc address y z _ _ hi address_injective hy hb hs rfl ht hz (fun h => absurd hz0 h) (fun _ => rfl) hc
    (.done _ inc' addr y' z' hi' ha hy' hb' hs' (fun h => ?_) hz' (fun h => absurd hz0' h) (.inl hz0'))⟩
  obtain ⟨v, hv, -⟩ := (total_zero plain_lawful hE.wf hf' hs').1 h.2
  exact hreq v hv

/-- With any number of workers, some execution returns a graph, and the vertex that's been cut off is lost. -/
example (hn : 0 < n) : ∃ (N' : Type) (r : Gr N' Nat Bool) (a f d : Multiset (Nat ⊕ Bool)),
    Reclaims plain (cutter true) 0 hn false forked (.ok r) a f d ∧ contents forked + a = contents r + f + d ∧ .inl 5 ∈ d := by
  obtain ⟨N', r, h⟩ := cutter_stretched hn
  obtain ⟨a, f, d, h⟩ := C140_every.1 h
  refine ⟨N', r, a, f, d, h, C140_account plain_lawful forked_wf forked_distinct h, ?_⟩
  exact C140_leak (m := 2) plain_lawful forked_wf forked_distinct rfl (by decide) (by decide) (fun _ inc _ => cutter_creates _ _)
    (fun _ inc u l w hm h => (cutter_made hm).1 (by simpa [Orders.Same, plain, forked] using h)) h

/-- Without `st_fix`, it's freed along with the label of the edge, as is that of the edge that's been replaced, but if the job is killed, the
origin is lost. -/
example : (∃ (N' : Type) (r : Gr N' Nat Bool) (a f : Multiset (Nat ⊕ Bool)), Reclaims plain (cutter false) (limitOf 0 n) hn false forked (.ok r) a f 0 ∧
      contents forked + a = contents r + f) ∧
    ∃ a f d, Reclaims plain (cutter false) (limitOf 0 1) Nat.one_pos true forked (.error Build.intKil) a f d ∧ (.inl 0 : Nat ⊕ Bool) ∈ d := by
  have key : ∀ {n : Nat} (hn : 0 < n), ∃ (N' : Type) (r : Gr N' Nat Bool), Stretched plain (cutter false) (limitOf 0 n) hn false forked (.ok r) := by
    intro n hn
    obtain ⟨inc, hi⟩ := exists_duplex forked forked_wf.nodup
    obtain ⟨y, hy⟩ := C36_exists (x := cutter false) (k := 0) (hn := hn) plain_lawful address_injective forked_wf forked_distinct rfl hi
    obtain ⟨N', r, rfl⟩ := succeeds plain_lawful forked_wf forked_distinct rfl (fun _ inc => ⟨cutter_safe _ _, cutter_fine _ _ _⟩) hy
    exact ⟨N', r, hy⟩
  refine ⟨?_, ?_⟩
  · obtain ⟨N', r, h⟩ := key hn
    obtain ⟨a, f, d, h⟩ := C140_every.1 h
    have h0 := C140_pass rfl h
    subst h0
    exact ⟨N', r, a, f, h, by simpa [returned] using C140_account plain_lawful forked_wf forked_distinct h⟩
  · obtain ⟨N', r, h⟩ := key Nat.one_pos
    exact C140_killable plain_lawful forked_wf forked_distinct h

/-- A pass in which a node is freed: of two requests for equal vertices, one is discarded. -/
def doubler : Stretcher Nat Bool Nat := ⟨false, fun p l q => ⟨0, false, if q = p + 2 then [⟨l, p + 1, l⟩, ⟨!l, p + 1, l⟩] else []⟩, fun v _ _ => v⟩

example : let y := (greedy (task plain (doubler.ask forked forked.inn) forked address 0 Nat.one_pos) (initial forked) 400 (init (start (n := 1) forked)))
    y.main = .done ∧ y.g.mem.dead.length = 1 ∧ y.g.mem.freed.length = 1 ∧
    (stored y.g.mem + (y.g.mem.dead : Multiset (Nd Nat Nat Bool))).Nodup := by
  intro y
  have h1 : y.main = .done := by decide +kernel
  exact ⟨h1, by decide +kernel, by decide +kernel,
    (C140_once (hn := Nat.one_pos) (limit := 0) plain_lawful address_injective forked_wf forked_distinct ⟨y, greedy_reach _ _ .init, h1, rfl⟩).1⟩

end Cru.Stretch
