import Verif.Proofs.StretchEqual
import Verif.Props.Dedup
import Mathlib.Data.Countable.Basic
import Mathlib.Logic.Encodable.Basic

/-!
# C36 and C99-C102: stretching

`Stretched o x limit hn killable g y` says that some execution of `cru_stretched` on the graph `g` by `n` workers ends with the outcome `y`.
`Expands`, `Grows`, `Ends`, `Crowded`, `Clash`, and `Raised` are in `Spec/Stretch.lean`.
-/

namespace Cru.Stretch

open Net Dedup

variable {n : Nat} {N V L P : Type} [DecidableEq V] [DecidableEq L]
variable {o : Orders V L} {x : Stretcher V L P} {hn : 0 < n} {k : Nat} {killable : Bool}

theorem limitOf_eq (k n : Nat) : (limitOf k n ≠ 0 ↔ k ≠ 0) ∧ (k ≠ 0 → limitOf k n = max 1 (k / n)) := by
  unfold limitOf
  constructor
  · split_ifs with h1 h2
    · refine ⟨fun _ h => h1 (by rw [h]; simp), fun _ => h1⟩
    · simp [h2]
    · exact ⟨fun h => absurd rfl h, fun h => absurd h h2⟩
  · intro hk
    split_ifs with h1
    · exact (max_eq_right (Nat.pos_of_ne_zero h1)).symm
    · have : k / n = 0 := by omega
      rw [this]; rfl

/-- **C36.** When the vertices of the given graph differ from one another, `cru_stretched` makes passes as specified, and the last one ends as
specified. -/
theorem C36_stretched {g : Gr N V L} (ho : o.Lawful) (hw : g.WF) (hd : Distinct o g) (hk : killable = true → n = 1) {y : Outcome V L}
    (h : Stretched o x (limitOf k n) hn killable g y) : ∃ (N' : Type) (r : Gr N' V L), Grows o x g r ∧ Ends o x n k killable r y := by
  have hlim := limitOf_eq k n
  induction h with
  | stopped g hkill => exact ⟨_, g, .none g, .inl ⟨rfl, hkill⟩⟩
  | bad g inc addr y hdu ha hy hb =>
    have hf := runs_full ho ha hw hd hy
    exact ⟨_, g, .none g, _, inc, hdu, bad_clash hf.inv ho hw hb⟩
  | failed g inc addr y hdu ha hy hb hs =>
    have hf := runs_full ho ha hw hd hy
    obtain ⟨i, hi⟩ := status_mem hs
    have := blamed_raised hf.inv ho hw (by rw [hi]; exact hs) (hf.errs i (by rw [hi]; exact hs))
    rw [hi] at this
    refine ⟨_, g, .none g, .inr ⟨_, inc, hdu, ?_⟩⟩
    rcases this with h | ⟨h1, h2, h3⟩
    · exact .inl h
    · have h2' := hlim.1.1 h2
      exact .inr ⟨h1, h2', i, by rw [← hlim.2 h2']; exact h3⟩
  | again g inc addr y z ms r hdu ha hy hb hs hfix ht hz hzk hms hc hr ih =>
    have hf := runs_full ho ha hw hd hy
    have hF := full_final hf hs
    have hE := hF.expands ho hw hc
    obtain ⟨N', r', h1, h2⟩ := ih hE.wf hE.unique
    exact ⟨N', r', .pass inc _ hfix hdu hE ((total_zero ho hw hf hs).1 ht) h1, h2⟩
  | killed g inc addr y z hdu ha hy hb hs hfix hz hkill hzk hsw => exact ⟨_, g, .none g, .inl ⟨rfl, hkill⟩⟩
  | done g inc addr y z hdu ha hy hb hs hfix hz hkill hzk =>
    have hf := runs_full ho ha hw hd hy
    have hF := full_final hf hs
    have hz0 : z.killed = 0 := by
      rcases hzk with h | ⟨h1, -⟩
      · exact h
      · by_contra h
        have := hk (hkill h)
        omega
    refine ⟨_, g, .none g, _, inc, _, hdu, hF.expands ho hw (prunes_covers hz hz0), fun hx hc => hfix ⟨hx, (total_zero ho hw hf hs).2 hc⟩, fun h0 i => ?_⟩
    rw [← hlim.2 h0]
    exact hF.fits ho hw (hlim.1.2 h0) i

/-- **C36.** Without `st_fix`, there's one pass. -/
theorem C36_pass {g : Gr N V L} (ho : o.Lawful) (hw : g.WF) (hd : Distinct o g) (hx : x.fix = false) (hk : killable = true → n = 1) {N' : Type} {r : Gr N' V L}
    (h : Stretched o x (limitOf k n) hn killable g (.ok r)) :
    ∃ (_ : DecidableEq N) (inc : N → List (L × N)) (old : N → N'), ({ g with inn := inc } : Gr N V L).Duplex ∧ Expands o g (x.ask g inc) old r := by
  obtain ⟨N'', s, h1, h2⟩ := C36_stretched ho hw hd hk h
  cases h1 with
  | none =>
    obtain ⟨hdec, inc, old, h3, h4, -⟩ := h2
    exact ⟨hdec, inc, old, h3, h4⟩
  | pass inc old h3 => rw [hx] at h3; cases h3

section
variable [DecidableEq N] {ask : N → L × N → Answer V L} {g : Gr N V L} {addr : Nd N V L → Nat}

/-- **C36.** If no callback raises an error, a pass fails if and only if some worker has more vertices in its care than its share of the limit, and the
error is `CRU_INTOVF`. -/
theorem C36_overflow (ho : o.Lawful) (ha : Function.Injective addr) (hw : g.WF) (hd : Distinct o g) (he : ∀ e, ¬ Raised o g ask e) {y : Job n N V L}
    (hy : Runs o ask g addr (limitOf k n) hn y) :
    (status y ≠ 0 ↔ k ≠ 0 ∧ ∃ i : Fin n, Crowded o g ask (max 1 (k / n)) i) ∧ (status y ≠ 0 → status y = Build.intOvf) := by
  have hlim := limitOf_eq k n
  have hf := runs_full ho ha hw hd hy
  have key : status y ≠ 0 → status y = Build.intOvf ∧ k ≠ 0 ∧ ∃ i : Fin n, Crowded o g ask (max 1 (k / n)) i := by
    intro hs
    obtain ⟨i, hi⟩ := status_mem hs
    have := blamed_raised hf.inv ho hw (by rw [hi]; exact hs) (hf.errs i (by rw [hi]; exact hs))
    rw [hi] at this
    rcases this with h | ⟨h1, h2, h3⟩
    · exact absurd h (he _)
    · have h2' := hlim.1.1 h2
      exact ⟨h1, h2', i, by rw [← hlim.2 h2']; exact h3⟩
  refine ⟨⟨fun h => (key h).2, ?_⟩, fun h => (key h).1⟩
  rintro ⟨h0, i, h⟩ hs
  rw [← hlim.2 h0] at h
  exact (full_final hf hs).fits ho hw (hlim.1.2 h0) i h

/-- **C36.** Each pass ends, and some execution of it does. -/
theorem C36_terminates (ho : o.Lawful) (ha : Function.Injective addr) (hw : g.WF) (hd : Distinct o g) (limit : Nat) (hn : 0 < n) :
    Merge.Ends (task o ask g addr limit hn) (initial g) (start g) ∧ (∃ y, Runs o ask g addr limit hn y) ∧
    ∀ y, Runs o ask g addr limit hn y → status y = 0 →
      Merge.Ends (Filter.pruning (ends y.mem) (fun m => o.hash (vertex g m)) hn) (.old g.base) (Trav.start ()) ∧
      ∃ z, Prunes o g hn y.mem z ∧ z.killed = 0 := by
  refine ⟨fun f h0 hf => no_infinite_run hn (acc ho ha hw hd) f h0 hf, ?_, fun y hy hs => ?_⟩
  · obtain ⟨s, h1, h2⟩ := exists_done hn (acc (ask := ask) (limit := limit) (hn := hn) ho ha hw hd) _ .init
    exact ⟨s.g, s, h1, h2, rfl⟩
  · have hF := full_final (runs_full ho ha hw hd hy) hs
    have := Trav.ends (fun (_ : Fin n) (_ : Unit) _ => ((), 0)) (fun m => o.hash (vertex g m)) hn () (a := Nd.old g.base) (next := fun m => (ends y.mem m).map fun e => e.2)
      (ms := (List.finRange n).flatMap fun i => (y.mem.tab i).map Entry.node) fun m h => by
        obtain ⟨a, h1, rfl⟩ := hF.kept hw h
        exact List.mem_flatMap.2 ⟨_, List.mem_finRange _, List.mem_map.2 ⟨a, h1, rfl⟩⟩
    refine ⟨fun f h0 hf => this.1 f h0 hf, ?_⟩
    obtain ⟨z, h1, h2, h3⟩ := this.2
    exact ⟨z.g, ⟨z, h1, h2, rfl⟩, h3⟩


/-- **C36.** Without `st_fix`, some execution ends. -/
theorem C36_exists (ho : o.Lawful) (ha : Function.Injective addr) (hw : g.WF) (hd : Distinct o g) (hx : x.fix = false) {inc : N → List (L × N)}
    (hi : ({ g with inn := inc } : Gr N V L).Duplex) : ∃ y, Stretched o x (limitOf k n) hn false g y := by
  obtain ⟨-, ⟨y, hy⟩, h⟩ := C36_terminates (ask := x.ask g inc) ho ha hw hd (limitOf k n) hn
  cases hb : y.mem.bad with
  | true => exact ⟨_, .bad g inc addr y hi ha hy hb⟩
  | false =>
    by_cases hs : status y = 0
    · obtain ⟨-, z, hz, hz0⟩ := h y hy hs
      exact ⟨_, .done g inc addr y z hi ha hy hb hs (by simp [hx]) hz (fun h => absurd hz0 h) (.inl hz0)⟩
    · exact ⟨_, .failed g inc addr y hi ha hy hb hs⟩

end

/-! ## C99 -/

/-- **C99.** If two vertices in the given graph are equal and the expander never calls `cru_stretch`, `cru_stretched` always fails with an internal error,
even though no user function raises one. -/
theorem C99_equal {g : Gr N V L} (ho : o.Lawful) (hw : g.WF) (hx : ∀ p l q, (x.expander p l q).reqs = [] ∧ (x.expander p l q).err = 0)
    (hcmp : ∀ u w, (o.equal u w).2 = 0) {a b : N} (ha : a ∈ g.nodes) (hb : b ∈ g.nodes) (hne : a ≠ b) (hs : o.Same (g.vertex a) (g.vertex b))
    {y : Outcome V L} (h : Stretched o x (limitOf 0 n) hn false g y) : y = .error (-1658) := by
  have h0 : limitOf 0 n = 0 := by simp [limitOf]
  rw [h0] at h
  have key : ∀ [DecidableEq N] (inc : N → List (L × N)) (addr : Nd N V L → Nat) (y : Job n N V L), Runs o (x.ask g inc) g addr 0 hn y →
      y.mem.bad = false ∧ status y = -1658 := fun inc addr y hy =>
    idle_fails ho hw (fun m _ e _ => hx _ _ _) (fun a _ b _ => hcmp _ _) ha hb hne hs hy
  cases h with
  | stopped _ hk => cases hk
  | bad _ inc addr y hdu ha hy hb => rw [(key inc addr y hy).1] at hb; cases hb
  | failed _ inc addr y hdu ha hy hb hs => rw [(key inc addr y hy).2]
  | again _ inc addr y z ms r hdu ha hy hb hs => rw [(key inc addr y hy).2] at hs; cases hs
  | killed _ inc addr y z hdu ha hy hb hs => rw [(key inc addr y hy).2] at hs; cases hs
  | done _ inc addr y z hdu ha hy hb hs => rw [(key inc addr y hy).2] at hs; cases hs

/-! ## C100 -/

omit [DecidableEq V] in
/-- Nothing is requested of an expander that never calls `cru_stretch`. -/
theorem not_requested [DecidableEq N] {g : Gr N V L} {inc : N → List (L × N)} (hx : ∀ p l q, (x.expander p l q).reqs = [] ∧ (x.expander p l q).err = 0) {v : V} :
    ¬ Requested g (x.ask g inc) v := by
  rintro ⟨m, -, e, -, q, h, -⟩
  have : (x.ask g inc m e).reqs = [] := (hx _ _ _).1
  rw [this] at h
  cases h

/-- **C100.** If there are more vertices in the care of some worker than the limit divided by the number of workers, `cru_stretched` fails with
`CRU_INTOVF`, even if there are fewer vertices than the limit and no vertex is ever created. -/
theorem C100_overflow {g : Gr N V L} (ho : o.Lawful) (hw : g.WF) (hd : Distinct o g) (hx : ∀ p l q, (x.expander p l q).reqs = [] ∧ (x.expander p l q).err = 0)
    (hcmp : ∀ u w, (o.equal u w).2 = 0) (hk : k ≠ 0) (i : Fin n) (hi : max 1 (k / n) < (g.nodes.filter fun m => o.hash (g.vertex m) % 1031 % n = i).length)
    {y : Outcome V L} (h : Stretched o x (limitOf k n) hn false g y) : y = .error Build.intOvf := by
  obtain ⟨N', r, h1, h2⟩ := C36_stretched ho hw hd (by intro h; cases h) h
  have hfull : ∀ [DecidableEq N] (inc : N → List (L × N)), Crowded o g (x.ask g inc) (max 1 (k / n)) i := fun inc => by
    refine ⟨(g.nodes.filter fun m => o.hash (g.vertex m) % 1031 % n = i).map g.vertex, by rwa [List.length_map], ?_, ?_⟩
    · rw [List.pairwise_map]
      exact List.Pairwise.sublist List.filter_sublist hd
    · intro v hv
      obtain ⟨m, hm, rfl⟩ := List.mem_map.1 hv
      obtain ⟨h1, h2⟩ := List.mem_filter.1 hm
      exact ⟨.inl ⟨m, h1, rfl⟩, of_decide_eq_true h2⟩
  cases h1 with
  | pass inc old h3 h4 h5 h6 => obtain ⟨v, hv, -⟩ := h6; exact absurd hv (not_requested hx)
  | none =>
    cases y with
    | undefined =>
      obtain ⟨hdec, inc, -, m, -, w, -, i, j, a, b, e, f, q, r, -, -, h, -⟩ := h2
      have : (x.ask g inc m e).reqs = [] := (hx _ _ _).1
      rw [this] at h
      cases h
    | error e =>
      rcases h2 with ⟨-, h⟩ | ⟨hdec, inc, -, ⟨h0, ⟨m, -, f, -, h⟩ | ⟨u, w, -, -, h⟩⟩ | ⟨h, -⟩⟩
      · cases h
      · have : (x.ask g inc m f).err = 0 := (hx _ _ _).2
        exact absurd (h.symm.trans this) h0
      · exact absurd (h.symm.trans (hcmp u w)) h0
      · rw [h]
    | ok r =>
      obtain ⟨hdec, inc, old, -, -, -, h⟩ := h2
      exact absurd (hfull inc) (h hk i)

/-! ## C102 -/

/-- **C102.** With more than one worker, if some execution that isn't killed returns a graph with enough vertices, then some execution that's killed
returns a graph without an error in which an edge leads to a vertex that has been freed. -/
theorem C102_dangling {g : Gr N V L} (ho : o.Lawful) (hw : g.WF) (hd : Distinct o g) (hx : x.fix = false) (hn1 : 1 < n) {N' : Type} {r : Gr N' V L}
    (h : Stretched o x (limitOf k n) hn false g (.ok r)) (hmany : 31 * n + 1 ≤ r.nodes.length) :
    ∃ (R : Gr (Nd N V L) V L), Stretched o x (limitOf k n) hn true g (.ok R) ∧ R.base ∈ R.nodes ∧ ∃ c ∈ R.nodes, ∃ e ∈ R.out c, e.2 ∉ R.nodes := by
  classical
  cases h with
  | again _ inc addr y z ms r hdu ha hy hb hs hfix => rw [hx] at hfix; cases hfix
  | done _ inc addr y z₀ hdu ha hy hb hs hfix hz₀ hk₀ hzk =>
    have hk₀ : z₀.killed = 0 := by by_contra h; cases hk₀ h
    have hc₀ := prunes_covers hz₀ hk₀
    have hF := full_final (runs_full ho ha hw hd hy) hs
    obtain ⟨z, hz, hdz, hfew, hkz⟩ := Trav.killed_few (fun (_ : Fin n) (_ : Unit) _ => ((), 0)) (fun m => o.hash (vertex g m)) hn () (a := Nd.old g.base)
      (next := fun m => (ends y.mem m).map fun e => e.2) (ms := (List.finRange n).flatMap fun i => (y.mem.tab i).map Entry.node) (fun m h => by
        obtain ⟨a, h1, rfl⟩ := hF.kept hw h
        exact List.mem_flatMap.2 ⟨_, List.mem_finRange _, List.mem_map.2 ⟨a, h1, rfl⟩⟩)
      (fun s => s.killed = 1) rfl (by
        intro i s m hs
        unfold Trav.handle
        obtain ⟨sample, stop, e, -⟩ := Trav.poll_eq s i
        rw [e]
        dsimp only
        split_ifs <;> exact hs)
    have hlen : (Dedup.kept z.g).length ≤ 31 * n := by
      unfold Dedup.kept
      rw [List.length_flatMap]
      refine le_trans (List.sum_le_card_nsmul _ 31 (by simpa using hfew)) (by simp [Nat.mul_comm])
    obtain ⟨m, hm, hmk⟩ : ∃ m ∈ Dedup.kept z₀, m ∉ Dedup.kept z.g := by
      by_contra hno
      push Not at hno
      have := (List.subperm_of_subset hc₀.nodup hno).length_le
      have h' : (result g y.mem (Dedup.kept z₀)).nodes.length = (Dedup.kept z₀).length := rfl
      omega
    have hbase : Nd.old g.base ∈ Dedup.kept z.g := by
      rcases Trav.first _ (Rover.done_bag hn hz hdz) with ⟨h, -⟩ | h
      · exact absurd h (by simp)
      · exact List.mem_flatMap.2 ⟨_, List.mem_finRange _, h⟩
    obtain ⟨c, hc, d, hd', hdk⟩ := crossing ((hc₀.mem _).1 hm) hbase hmk
    obtain ⟨e, hee, rfl⟩ := List.mem_map.1 hd'
    obtain ⟨a, h1, h2⟩ := hF.kept hw ((hc₀.mem _).1 hm)
    have hsw : sweepable y.mem z.g := ⟨_, a, h1, by rw [h2]; exact hmk⟩
    exact ⟨_, .done g inc addr y z.g hdu ha hy hb hs hfix ⟨z, hz, hdz, rfl⟩ (fun _ => rfl) (.inr ⟨hn1, hsw⟩), hbase, c, hc, e, hee, hdk⟩

/-! ## C101 -/

/-- **C101.** Without `st_fix`, `cru_stretched` doesn't touch an edge that's been freed, unless two calls to `cru_stretch` clash as specified. -/
theorem C101_safe {g : Gr N V L} (ho : o.Lawful) (hw : g.WF) (hd : Distinct o g) (hx : x.fix = false)
    (hc : ∀ (_ : DecidableEq N) (inc : N → List (L × N)), ¬ Clash o g (x.ask g inc)) : ¬ Stretched o x (limitOf k n) hn false g .undefined := by
  intro h
  obtain ⟨N', r, h1, h2⟩ := C36_stretched ho hw hd (by intro h; cases h) h
  cases h1 with
  | pass inc old h3 => rw [hx] at h3; cases h3
  | none => obtain ⟨hdec, inc, -, h⟩ := h2; exact hc hdec inc h

/-! ## Examples -/

/-- Every finite graph can be put into half duplex form. -/
theorem exists_duplex [DecidableEq N] (g : Gr N V L) (hw : g.nodes.Nodup) : ∃ inc : N → List (L × N), ({ g with inn := inc } : Gr N V L).Duplex := by
  refine ⟨fun b => g.nodes.flatMap fun a => ((g.out a).filter fun e => e.2 = b).map fun e => (e.1, a), fun a ha b hb l => ?_⟩
  have key : ∀ ns : List N, ns.Nodup → (ns.flatMap fun a => ((g.out a).filter fun e => e.2 = b).map fun e => (e.1, a)).count (l, a) =
      if a ∈ ns then (g.out a).count (l, b) else 0 := by
    intro ns
    induction ns with
    | nil => intro _; rfl
    | cons c ns ih =>
      intro hnd
      obtain ⟨h1, h2⟩ := List.nodup_cons.1 hnd
      rw [List.flatMap_cons, List.count_append, ih h2]
      have hc : (((g.out c).filter fun e => e.2 = b).map fun e => (e.1, c)).count (l, a) = if a = c then (g.out c).count (l, b) else 0 := by
        generalize g.out c = es
        induction es with
        | nil => simp
        | cons e es ih =>
          obtain ⟨e1, e2⟩ := e
          by_cases h1 : e2 = b <;> by_cases h2 : a = c <;> simp_all [List.count_cons]
          intro h3 h4; exact absurd h4.symm h2
      rw [hc]
      by_cases hac : a = c
      · subst hac; simp [h1]
      · simp [hac]
  have := key g.nodes hw
  rw [if_pos ha] at this
  exact this.symm

/-- Addresses for nodes. -/
def address : Nd Nat Nat Bool → Nat
  | .old m => Encodable.encode (Sum.inl m : Nat ⊕ Nat × Nat × Nat × Bool × Nat × Bool × Nat)
  | .new m pos k r t => Encodable.encode (Sum.inr (m, pos, k, r.ante, r.vertex, r.post, t) : Nat ⊕ Nat × Nat × Nat × Bool × Nat × Bool × Nat)

theorem address_injective : Function.Injective address := by
  intro a b h
  unfold address at h
  rcases a with a | ⟨a1, a2, a3, ⟨a4, a5, a6⟩, a7⟩ <;> rcases b with b | ⟨b1, b2, b3, ⟨b4, b5, b6⟩, b7⟩ <;> dsimp only at h <;>
    have h := Encodable.encode_injective h <;> simp_all

/-- An expander that never calls `cru_stretch` and never deletes an edge. -/
def idle (fix : Bool) : Stretcher Nat Bool Unit := ⟨fix, fun _ _ _ => ⟨0, false, []⟩, fun _ _ _ => ()⟩

/-- The property of a vertex is the vertex.  Edges from `p` to `p + 2` are replaced by paths by way of `p + 1`. -/
def halver (fix : Bool) : Stretcher Nat Bool Nat := ⟨fix, fun p l q => ⟨0, q == p + 2, if q = p + 2 then [⟨l, p + 1, !l⟩] else []⟩, fun v _ _ => v⟩

/-- A cycle of two vertices. -/
def pair : Gr Nat Nat Bool where
  nodes := [0, 1]
  base := 0
  vertex m := 2 * m
  out m := if m = 0 then [(true, 1)] else if m = 1 then [(false, 0)] else []
  inn _ := []

theorem pair_wf : pair.WF := wf_range (k := 2) rfl rfl (by decide) (by decide) (by decide)

theorem pair_distinct : Distinct plain pair := by
  unfold Distinct pair Orders.Same plain
  decide

theorem halver_requested {fix : Bool} {inc : Nat → List (Bool × Nat)} {v : Nat} (h : Requested pair ((halver fix).ask pair inc) v) : v = 1 := by
  obtain ⟨m, hm, e, he, q, hq, rfl⟩ := h
  have hm' : m = 0 ∨ m = 1 := by simpa [pair] using hm
  rcases hm' with rfl | rfl
  · have he' : e = (true, 1) := by simpa [pair] using he
    subst he'
    have hq' : q = ⟨true, 1, false⟩ := by simpa [Stretcher.ask, halver, pair] using hq
    rw [hq']
  · have he' : e = (false, 0) := by simpa [pair] using he
    subst he'
    simp [Stretcher.ask, halver, pair] at hq

theorem halver_ante (fix : Bool) (inc : Nat → List (Bool × Nat)) : Made pair ((halver fix).ask pair inc) 0 true 1 :=
  .ante (m := 0) (e := (true, 1)) (q := ⟨true, 1, false⟩) (by decide) (by decide) (by simp [Stretcher.ask, halver, pair])

theorem halver_safe (fix : Bool) (inc : Nat → List (Bool × Nat)) : ¬ Clash plain pair ((halver fix).ask pair inc) := by
  rintro ⟨m, hm, w, hw, i, j, k, l, e, f, q, r, he, -, hq, -, -, -, -, h⟩
  have h1 := halver_requested ⟨m, hm, e, List.mem_of_getElem? he, q, List.mem_of_getElem? hq, rfl⟩
  rw [h1] at h
  simp [Orders.Same, plain, pair] at h
  omega

theorem halver_fine (fix : Bool) (inc : Nat → List (Bool × Nat)) (e : Int) : ¬ Raised plain pair ((halver fix).ask pair inc) e := by
  rintro ⟨h0, ⟨m, -, f, -, h⟩ | ⟨u, w, -, -, h⟩⟩
  · exact h0 h.symm
  · exact h0 h.symm

/-- Without a reason to fail, `cru_stretched` returns a graph. -/
theorem succeeds {g : Gr N V L} (ho : o.Lawful) (hw : g.WF) (hd : Distinct o g) (hx : x.fix = false)
    (hc : ∀ (_ : DecidableEq N) (inc : N → List (L × N)), ¬ Clash o g (x.ask g inc) ∧ ∀ e, ¬ Raised o g (x.ask g inc) e) {y : Outcome V L}
    (h : Stretched o x (limitOf 0 n) hn false g y) : ∃ (N' : Type) (r : Gr N' V L), y = .ok r := by
  obtain ⟨N', r, h1, h2⟩ := C36_stretched (k := 0) ho hw hd (by intro h; cases h) h
  cases h1 with
  | pass inc old h3 => rw [hx] at h3; cases h3
  | none =>
    cases y with
    | undefined => obtain ⟨hdec, inc, -, h⟩ := h2; exact absurd h (hc hdec inc).1
    | error e =>
      rcases h2 with ⟨-, h⟩ | ⟨hdec, inc, -, h | ⟨-, h, -⟩⟩
      · cases h
      · exact absurd h ((hc hdec inc).2 e)
      · exact absurd rfl h
    | ok r => exact ⟨_, r, rfl⟩

/-- A pass is made, in which a vertex is inserted. -/
example (hn : 0 < n) : ∃ (N' : Type) (r : Gr N' Nat Bool), Stretched plain (halver false) (limitOf 0 n) hn false pair (.ok r) ∧
    ∃ e ∈ r.out r.base, e.1 = true ∧ r.vertex e.2 = 1 := by
  obtain ⟨inc, hi⟩ := exists_duplex pair pair_wf.nodup
  obtain ⟨y, hy⟩ := C36_exists (x := halver false) (k := 0) (hn := hn) plain_lawful address_injective pair_wf pair_distinct rfl hi
  obtain ⟨N', r, rfl⟩ := succeeds plain_lawful pair_wf pair_distinct rfl (fun _ _ => ⟨halver_safe _ _, halver_fine _ _⟩) hy
  refine ⟨N', r, hy, ?_⟩
  obtain ⟨hdec, inc, old, -, h⟩ := C36_pass plain_lawful pair_wf pair_distinct rfl (by intro h; cases h) hy
  obtain ⟨e, h1, h2, h3⟩ := h.complete r.base ((h.reach.mem _).2 .refl) 0 true 1 (halver_ante _ _) (by rw [h.base, h.vertex]; rfl)
  exact ⟨e, h1, by simpa [plain] using h2, (by simpa [Orders.Same, plain] using h3 : 1 = _).symm⟩

/-- A pass fails if there are more vertices than allowed. -/
example (y : Job 1 Nat Nat Bool) (inc : Nat → List (Bool × Nat)) (hy : Runs plain ((halver false).ask pair inc) pair address (limitOf 2 1) Nat.one_pos y) :
    status y = Build.intOvf := by
  have h := C36_overflow (k := 2) plain_lawful address_injective pair_wf pair_distinct (halver_fine _ _) hy
  refine h.2 (h.1.2 ⟨by decide, 0, [0, 1, 2], by decide, by unfold Orders.Same plain; decide, fun v hv => ⟨?_, ?_⟩⟩)
  · have hv' : v = 0 ∨ v = 1 ∨ v = 2 := by simpa using hv
    rcases hv' with rfl | rfl | rfl
    · exact .inl ⟨0, by decide, rfl⟩
    · exact .inr ⟨0, by decide, (true, 1), by decide, ⟨true, 1, false⟩, by simp [Stretcher.ask, halver, pair], rfl⟩
    · exact .inl ⟨1, by decide, rfl⟩
  · exact Nat.mod_one _

/-- It doesn't if there aren't. -/
example (y : Job 1 Nat Nat Bool) (inc : Nat → List (Bool × Nat)) (hy : Runs plain ((halver false).ask pair inc) pair address (limitOf 3 1) Nat.one_pos y) :
    status y = 0 := by
  have h := C36_overflow (k := 3) plain_lawful address_injective pair_wf pair_distinct (halver_fine _ _) hy
  by_contra hs
  obtain ⟨-, i, vs, h1, h2, h3⟩ := h.1.1 hs
  have hsub : vs ⊆ [0, 1, 2] := by
    intro v hv
    rcases (h3 v hv).1 with ⟨m, hm, rfl⟩ | h4
    · have hm' : m = 0 ∨ m = 1 := by simpa [pair] using hm
      rcases hm' with rfl | rfl <;> decide
    · rw [halver_requested h4]; decide
  have hnd : vs.Nodup := h2.imp fun h h' => h (by rw [h']; exact plain_lawful.vertex.refl _)
  have := (List.subperm_of_subset hnd hsub).length_le
  simp at this h1
  omega

theorem halver_made {fix : Bool} {inc : Nat → List (Bool × Nat)} {u w : Nat} {l : Bool} (h : Made pair ((halver fix).ask pair inc) u l w) : w ≠ u + 2 := by
  have hpair : ∀ m ∈ pair.nodes, ∀ e ∈ pair.out m, m = 0 ∧ e = (true, 1) ∨ m = 1 ∧ e = (false, 0) := by decide
  cases h with
  | @keep m e hm he hd =>
    rcases hpair m hm e he with ⟨rfl, rfl⟩ | ⟨rfl, rfl⟩
    · simp [Stretcher.ask, halver, pair] at hd
    · simp [pair]
  | @ante m e q hm he hq =>
    rcases hpair m hm e he with ⟨rfl, rfl⟩ | ⟨rfl, rfl⟩
    · simp [Stretcher.ask, halver, pair] at hq
      simp [hq, pair]
    · simp [Stretcher.ask, halver, pair] at hq
  | @post m e q hm he hq =>
    rcases hpair m hm e he with ⟨rfl, rfl⟩ | ⟨rfl, rfl⟩
    · simp [Stretcher.ask, halver, pair] at hq
      simp [hq, pair]
    · simp [Stretcher.ask, halver, pair] at hq

omit [DecidableEq V] [DecidableEq L] in
theorem exists_address [Countable N] [Countable V] [Countable L] : ∃ addr : Nd N V L → Nat, Function.Injective addr := by
  have : Countable (Nd N V L) := by
    refine Function.Injective.countable (β := N ⊕ N × Nat × Nat × L × V × L × N)
      (f := fun | .old m => .inl m | .new m pos k r t => .inr (m, pos, k, r.ante, r.vertex, r.post, t)) ?_
    rintro (a | ⟨a1, a2, a3, ⟨a4, a5, a6⟩, a7⟩) (b | ⟨b1, b2, b3, ⟨b4, b5, b6⟩, b7⟩) h <;> simp_all
  exact exists_injective_nat _

/-- With `st_fix`, the graph is stretched again, but nothing more is inserted. -/
example (hn : 0 < n) : ∃ (N' : Type) (r : Gr N' Nat Bool), Stretched plain (halver true) (limitOf 0 n) hn false pair (.ok r) := by
  have hlim : limitOf 0 n = 0 := by simp [limitOf]
  obtain ⟨inc, hi⟩ := exists_duplex pair pair_wf.nodup
  obtain ⟨-, ⟨y, hy⟩, h⟩ := C36_terminates (ask := (halver true).ask pair inc) plain_lawful address_injective pair_wf pair_distinct 0 hn
  have hf := runs_full plain_lawful address_injective pair_wf pair_distinct hy
  have hb : y.mem.bad = false := by
    cases hb : y.mem.bad with
    | false => rfl
    | true => exact absurd (bad_clash hf.inv plain_lawful pair_wf hb) (halver_safe _ _)
  have hs : status y = 0 := by
    by_contra hs
    obtain ⟨i, hi⟩ := status_mem hs
    rcases blamed_raised hf.inv plain_lawful pair_wf (by rw [hi]; exact hs) (hf.errs i (by rw [hi]; exact hs)) with h | ⟨-, h, -⟩
    · exact absurd h (halver_fine _ _ _)
    · exact h rfl
  obtain ⟨-, z, hz, hz0⟩ := h y hy hs
  have hE := (full_final hf hs).expands plain_lawful pair_wf (prunes_covers hz hz0)
  have ht : total y ≠ 0 := (total_zero plain_lawful pair_wf hf hs).2 ⟨1, ⟨0, by decide, (true, 1), by decide, ⟨true, 1, false⟩, by simp [Stretcher.ask, halver, pair], rfl⟩, by
    unfold Orders.Same plain; decide⟩
  have hc := prunes_covers hz hz0
  haveI : Countable (Nd Nat Nat Bool) := address_injective.countable
  obtain ⟨addr, ha⟩ := exists_address (N := Nd Nat Nat Bool) (V := Nat) (L := Bool)
  obtain ⟨inc', hi'⟩ := exists_duplex (result pair y.mem (Dedup.kept z)) hE.wf.nodup
  obtain ⟨-, ⟨y', hy'⟩, h'⟩ := C36_terminates (ask := (halver true).ask (result pair y.mem (Dedup.kept z)) inc') plain_lawful ha hE.wf hE.unique 0 hn
  have hf' := runs_full plain_lawful ha hE.wf hE.unique hy'
  have hno : ∀ m ∈ (result pair y.mem (Dedup.kept z)).nodes, ∀ e ∈ (result pair y.mem (Dedup.kept z)).out m,
      ((halver true).ask (result pair y.mem (Dedup.kept z)) inc' m e).reqs = [] := by
    intro m hm e he
    obtain ⟨u, w, h1, h2, h3⟩ := hE.sound m hm e he
    have h2 : u = (result pair y.mem (Dedup.kept z)).vertex m := by simpa [Orders.Same, plain] using h2
    have h3 : w = (result pair y.mem (Dedup.kept z)).vertex e.2 := by simpa [Orders.Same, plain] using h3
    have h4 := halver_made h1
    rw [h2, h3] at h4
    simp only [Stretcher.ask, halver]
    rw [if_neg h4]
  have hreq : ∀ v, ¬ Requested (result pair y.mem (Dedup.kept z)) ((halver true).ask (result pair y.mem (Dedup.kept z)) inc') v := by
    rintro v ⟨m, hm, e, he, q, hq, -⟩
    rw [hno m hm e he] at hq
    cases hq
  have hb' : y'.mem.bad = false := by
    cases hb : y'.mem.bad with
    | false => rfl
    | true =>
      obtain ⟨m, hm, w, hw, i, j, k, l, e, f, q, r, he, -, hq, -⟩ := bad_clash hf'.inv plain_lawful hE.wf hb
      exact absurd ⟨m, hm, e, List.mem_of_getElem? he, q, List.mem_of_getElem? hq, rfl⟩ (hreq q.vertex)
  have hs' : status y' = 0 := by
    by_contra hs
    obtain ⟨i, hi⟩ := status_mem hs
    rcases blamed_raised hf'.inv plain_lawful hE.wf (by rw [hi]; exact hs) (hf'.errs i (by rw [hi]; exact hs)) with ⟨h0, ⟨m, -, f, -, h⟩ | ⟨u, w, -, -, h⟩⟩ | ⟨-, h, -⟩
    · exact h0 h.symm
    · exact h0 h.symm
    · exact h rfl
  obtain ⟨-, z', hz', hz0'⟩ := h' y' hy' hs'
  rw [hlim]
  refine ⟨_, _, .again pair inc address y z _ _ hi address_injective hy hb hs rfl ht hz (fun h => absurd hz0 h) (fun _ => rfl) hc
    (.done _ inc' addr y' z' hi' ha hy' hb' hs' (fun h => ?_) hz' (fun h => absurd hz0' h) (.inl hz0'))⟩
  obtain ⟨v, hv, -⟩ := (total_zero plain_lawful hE.wf hf' hs').1 h.2
  exact hreq v hv

/-- A cycle in which two vertices are halves of the same number. -/
def twins : Gr Nat Nat Bool where
  nodes := [0, 1, 2]
  base := 0
  vertex m := m
  out m := if m = 0 then [(true, 1)] else if m = 1 then [(true, 2)] else if m = 2 then [(false, 0)] else []
  inn m := if m = 0 then [(false, 2)] else if m = 1 then [(true, 0)] else if m = 2 then [(true, 1)] else []

theorem twins_wf : twins.WF := wf_range (k := 3) rfl rfl (by decide) (by decide) (by decide)

theorem twins_duplex : twins.Duplex := by unfold Gr.Duplex; decide

/-- The execution fails. -/
example : Stretched halves (idle false) (limitOf 0 1) Nat.one_pos false twins (.error (-1658)) := by
  have : status (greedy (task halves ((idle false).ask twins twins.inn) twins address 0 Nat.one_pos) (initial twins) 200 (init (start (n := 1) twins))).g = -1658 := by
    decide +kernel
  rw [← this]
  exact .failed twins twins.inn address _ twins_duplex address_injective ⟨_, greedy_reach _ _ .init, by decide +kernel, rfl⟩ (by decide +kernel) (by decide +kernel)

/-- They all do. -/
example (hn : 0 < n) {y : Outcome Nat Bool} (h : Stretched halves (idle false) (limitOf 0 n) hn false twins y) : y = .error (-1658) :=
  C99_equal halves_lawful twins_wf (fun _ _ _ => ⟨rfl, rfl⟩) (fun _ _ => rfl) (a := 0) (b := 1) (by decide) (by decide) (by decide) (by decide) h

/-- Three vertices with even hashes. -/
def evens : Gr Nat Nat Bool := { twins with vertex := fun m => 2 * m }

theorem evens_wf : evens.WF := wf_range (k := 3) rfl rfl (by decide) (by decide) (by decide)

theorem evens_distinct : Distinct plain evens := by
  unfold Distinct evens Orders.Same plain
  decide

/-- With two workers and a limit of four vertices, a graph of three can't even be left as it is. -/
example : ∃ y, Stretched plain (idle false) (limitOf 4 2) Nat.two_pos false evens y ∧ y = .error Build.intOvf := by
  obtain ⟨inc, hi⟩ := exists_duplex evens evens_wf.nodup
  obtain ⟨y, hy⟩ := C36_exists (x := idle false) (k := 4) (hn := Nat.two_pos) plain_lawful address_injective evens_wf evens_distinct rfl hi
  exact ⟨y, hy, C100_overflow plain_lawful evens_wf evens_distinct (fun _ _ _ => ⟨rfl, rfl⟩) (fun _ _ => rfl) (by decide) 0 (by decide) hy⟩

/-- For the edge from 0 to 1, a path is requested by way of the origin, and two by way of a vertex that's two edges away. -/
def clasher : Stretcher Nat Bool Nat :=
  ⟨false, fun p l q => ⟨0, false, if p = 0 ∧ q = 1 then [⟨l, 0, l⟩, ⟨l, 2, l⟩, ⟨l, 2, l⟩] else []⟩, fun v _ _ => v⟩

/-- **C101.** An edge can be redirected after it's been freed. -/
theorem C101_freed : Distinct plain twins ∧ Stretched plain clasher (limitOf 0 1) Nat.one_pos false twins .undefined := by
  refine ⟨by unfold Distinct twins Orders.Same plain; decide, ?_⟩
  refine .bad twins twins.inn address
    (greedy (task plain (clasher.ask twins twins.inn) twins address 0 Nat.one_pos) (initial twins) 200 (init (start (n := 1) twins))).g twins_duplex
    address_injective ⟨_, greedy_reach _ _ .init, by decide +kernel, rfl⟩ (by decide +kernel)

/-- The expander in the example before doesn't lead to that. -/
example (hn : 0 < n) : ¬ Stretched plain (halver false) (limitOf k n) hn false pair .undefined :=
  C101_safe plain_lawful pair_wf pair_distinct rfl fun _ _ => halver_safe _ _

/-- With any number of lanes more than one, a kill request can leave an edge to a vertex that's been freed. -/
example (hn : 0 < n) (hn1 : 1 < n) : ∃ (R : Gr (Nd Nat Nat Bool) Nat Bool), Stretched plain (idle false) (limitOf 0 n) hn true (Filter.star (31 * n + 1)) (.ok R) ∧
    ∃ c ∈ R.nodes, ∃ e ∈ R.out c, e.2 ∉ R.nodes := by
  have hw := Filter.star_wf (31 * n + 1)
  have hd : Distinct plain (Filter.star (31 * n + 1)) := List.Pairwise.imp (fun h h' => h (by simpa [Orders.Same, plain, Filter.star] using h')) hw.nodup
  obtain ⟨inc, hi⟩ := exists_duplex (Filter.star (31 * n + 1)) hw.nodup
  obtain ⟨y, hy⟩ := C36_exists (x := idle false) (k := 0) (hn := hn) plain_lawful address_injective hw hd rfl hi
  have hreq : ∀ inc v, ¬ Requested (Filter.star (31 * n + 1)) ((idle false).ask (Filter.star (31 * n + 1)) inc) v := fun inc v =>
    not_requested fun _ _ _ => ⟨rfl, rfl⟩
  obtain ⟨N', r, rfl⟩ := succeeds plain_lawful hw hd rfl (fun _ inc => ⟨by
    rintro ⟨m, hm, w, hw, i, j, k, l, e, f, q, r, he, -, hq, -⟩
    exact absurd ⟨m, hm, e, List.mem_of_getElem? he, q, List.mem_of_getElem? hq, rfl⟩ (hreq inc q.vertex), by
    rintro e ⟨h0, ⟨m, -, f, -, h⟩ | ⟨u, w, -, -, h⟩⟩
    · exact h0 h.symm
    · exact h0 h.symm⟩) hy
  obtain ⟨-, inc, old, -, h⟩ := C36_pass plain_lawful hw hd rfl (by intro h; cases h) hy
  have hsub : List.range (31 * n + 2) ⊆ r.nodes.map r.vertex := by
    intro v hv
    have h0 : r.base ∈ r.nodes := (h.reach.mem _).2 .refl
    by_cases hv0 : v = 0
    · exact List.mem_map.2 ⟨_, h0, by rw [h.base, h.vertex, hv0]; rfl⟩
    · obtain ⟨e, h1, -, h2⟩ := h.complete r.base h0 0 true v (.keep (m := 0) (e := (true, v)) (by simp [Filter.star]) (by
        simp only [Filter.star, if_true]
        refine List.mem_map.2 ⟨v - 1, List.mem_range.2 ?_, ?_⟩
        · have := List.mem_range.1 hv; omega
        · rw [Nat.sub_add_cancel (Nat.pos_of_ne_zero hv0)]) rfl) (by rw [h.base, h.vertex]; rfl)
      refine List.mem_map.2 ⟨e.2, (h.reach.mem _).2 (Relation.ReflTransGen.tail .refl (List.mem_map.2 ⟨e, h1, rfl⟩)), ?_⟩
      exact (by simpa [Orders.Same, plain] using h2 : v = _).symm
  have hlen := (List.subperm_of_subset List.nodup_range hsub).length_le
  rw [List.length_range, List.length_map] at hlen
  obtain ⟨R, h1, -, h2⟩ := C102_dangling plain_lawful hw hd rfl hn1 hy (by omega)
  exact ⟨R, h1, h2⟩

end Cru.Stretch
