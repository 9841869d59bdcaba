import Verif.Spec.Links

/-!
# C146: lists in memory
-/

namespace Cru.Links

variable {R N : Type} [DecidableEq R] [DecidableEq N]

theorem put_same {B Y : Type} [DecidableEq B] (m : B → Y) (b : B) (y : Y) : put m b y b = y := if_pos rfl

theorem put_other {B Y : Type} [DecidableEq B] (m : B → Y) {b c : B} (y : Y) (h : c ≠ b) : put m b y c = m c := if_neg h

theorem chain_congr {h h' : Heap R N} {p : Slot R N} {l : List N} (hc : Chain h p l) (hp : h'.ptr p = h.ptr p)
    (hn : ∀ n ∈ l, h'.ptr (.next n) = h.ptr (.next n)) (hv : ∀ n ∈ l, h'.prev n = h.prev n) : Chain h' p l := by
  induction l generalizing p with
  | nil => exact hp.trans hc
  | cons n l ih =>
    obtain ⟨h1, h2, h3⟩ := hc
    exact ⟨hp.trans h1, (hv n List.mem_cons_self).trans h2,
      ih h3 (hn n List.mem_cons_self) (fun m hm => hn m (List.mem_cons_of_mem _ hm)) fun m hm => hv m (List.mem_cons_of_mem _ hm)⟩

theorem after_cons (p : Slot R N) (n : N) (a : List N) : after p (n :: a) = after (.next n) a := by
  unfold after
  cases a with
  | nil => rfl
  | cons m a => rw [List.getLast?_cons_cons]; cases h : (m :: a).getLast? <;> simp_all

theorem chain_append {h : Heap R N} {p : Slot R N} {a b : List N} :
    Chain h p (a ++ b) ↔ (∃ q, q = after p a ∧ Chain h q b) ∧
      ∀ a₁ n a₂, a = a₁ ++ n :: a₂ → h.ptr (after p a₁) = some n ∧ h.prev n = some (after p a₁) := by
  induction a generalizing p with
  | nil =>
    refine ⟨fun hc => ⟨⟨p, rfl, hc⟩, fun a₁ n a₂ h => by simp at h⟩, fun ⟨⟨q, hq, hc⟩, _⟩ => ?_⟩
    rw [hq] at hc
    exact hc
  | cons m a ih =>
    rw [List.cons_append]
    constructor
    · rintro ⟨h1, h2, h3⟩
      obtain ⟨h4, h5⟩ := ih.1 h3
      rw [after_cons]
      refine ⟨h4, fun a₁ n a₂ he => ?_⟩
      cases a₁ with
      | nil =>
        cases he
        exact ⟨h1, h2⟩
      | cons x a₁ =>
        rw [List.cons_append] at he
        injection he with e1 e2
        subst e1
        rw [after_cons]
        exact h5 a₁ n a₂ e2
    · rintro ⟨h4, h5⟩
      rw [after_cons] at h4
      obtain ⟨h1, h2⟩ := h5 [] m a rfl
      refine ⟨h1, h2, ih.2 ⟨h4, fun a₁ n a₂ he => ?_⟩⟩
      have := h5 (m :: a₁) n a₂ (by rw [he]; rfl)
      rwa [after_cons] at this

theorem after_ne {r : R} {a : List N} {n : N} (hn : n ∉ a) : after (.root r) a ≠ .next n := by
  unfold after
  cases h : a.getLast? with
  | none => simp
  | some m =>
    intro he
    cases he
    exact hn (List.mem_of_getLast? h)

theorem after_snoc (p : Slot R N) (a : List N) (n : N) : after p (a ++ [n]) = .next n := by
  unfold after
  rw [List.getLast?_append]
  rfl

theorem after_inj {r : R} {a b : List N} (h : after (.root r) a = after (.root r) b) : a.getLast? = b.getLast? := by
  unfold after at h
  cases ha : a.getLast? <;> cases hb : b.getLast? <;> rw [ha, hb] at h <;> cases h <;> rfl

/-- Places in a list are different. -/
theorem after_before {r : R} {a a₁ a₂ : List N} {m : N} (hd : a.Nodup) (he : a = a₁ ++ m :: a₂) : after (.root r) a₁ ≠ after (.root r) a := by
  intro h
  have h1 := after_inj h
  rw [he, List.getLast?_append_of_ne_nil _ (by simp)] at h1
  obtain ⟨x, hx⟩ : ∃ x, (m :: a₂).getLast? = some x := ⟨_, List.getLast?_eq_some_getLast (by simp)⟩
  rw [hx] at h1
  rw [he] at hd
  exact (List.nodup_append.1 hd).2.2 x (List.mem_of_getLast? h1) x (List.mem_of_getLast? hx) rfl

/-- The remainder of a list is replaced. -/
theorem chain_replace {h h' : Heap R N} {r : R} {a b c : List N} (hc : Chain h (.root r) (a ++ b)) (hv : ∀ m ∈ a, h'.prev m = h.prev m)
    (hp : ∀ a₁ m a₂, a = a₁ ++ m :: a₂ → h'.ptr (after (.root r) a₁) = h.ptr (after (.root r) a₁)) (hc' : Chain h' (after (.root r) a) c) :
    Chain h' (.root r) (a ++ c) := by
  refine chain_append.2 ⟨⟨_, rfl, hc'⟩, fun a₁ n a₂ he => ?_⟩
  rw [hp a₁ n a₂ he, hv n (by rw [he]; simp)]
  exact (chain_append.1 hc).2 a₁ n a₂ he

theorem chain_after {h : Heap R N} {p : Slot R N} {a b : List N} (hc : Chain h p (a ++ b)) : Chain h (after p a) b := by
  obtain ⟨⟨q, rfl, h1⟩, -⟩ := chain_append.1 hc
  exact h1

theorem after_root {r r' : R} {a : List N} (hr : r' ≠ r) : after (.root r) a ≠ (.root r' : Slot R N) := by
  unfold after
  cases a.getLast? with
  | none => intro h; cases h; exact hr rfl
  | some m => intro h; cases h

/-! ## Nodes -/

/-- C146: a node on its own can be inserted anywhere in a list. -/
theorem C146_pushed {h : Heap R N} {ls : R → List N} (hh : Has h ls) {r : R} {a b : List N} (hl : ls r = a ++ b) {n : N} (hn : ∀ r, n ∉ ls r) :
    ∃ h', pushed n (after (.root r) a) h = some h' ∧ Has h' (put ls r (a ++ n :: b)) := by
  obtain ⟨hp, hx⟩ := hh.loose n hn
  have hnr := hn r
  rw [hl] at hnr
  have hna : n ∉ a := fun h => hnr (List.mem_append_left _ h)
  have hnb : n ∉ b := fun h => hnr (List.mem_append_right _ h)
  have hc := hh.chain r
  have hd := hh.once r
  rw [hl] at hc hd
  obtain ⟨hda, hdb, hab⟩ := List.nodup_append.1 hd
  have hq := chain_after hc
  refine ⟨_, by unfold pushed; rw [if_neg (by rw [hp, hx]; simp)], ?_⟩
  have hptr : h.ptr (after (.root r) a) = b.head? := by
    cases b with
    | nil => exact hq
    | cons m b => exact hq.1
  -- what's changed
  have hprev : ∀ m, m ≠ n → (∀ b', b ≠ m :: b') → (match h.ptr (after (.root r) a) with
      | some m => put (put h.prev n (some (after (.root r) a))) m (some (.next n))
      | none => put h.prev n (some (after (.root r) a))) m = h.prev m := by
    intro m h1 h2
    rw [hptr]
    cases b with
    | nil => exact put_other _ _ h1
    | cons x b =>
      dsimp only [List.head?_cons]
      rw [put_other _ _ (by rintro rfl; exact h2 b rfl), put_other _ _ h1]
  have hpt : ∀ q, q ≠ .next n → q ≠ after (.root r) a →
      put (put h.ptr (.next n) (h.ptr (after (.root r) a))) (after (.root r) a) (some n) q = h.ptr q := fun q h1 h2 => by
    rw [put_other _ _ h2, put_other _ _ h1]
  have hne : (.next n : Slot R N) ≠ after (.root r) a := (after_ne hna).symm
  -- a node of the remainder isn't where it's inserted
  have hbne : ∀ m ∈ b, (.next m : Slot R N) ≠ after (.root r) a := fun m hm h => after_ne (fun h' => hab m h' m hm rfl) h.symm
  refine ⟨fun r' => ?_, fun r' => ?_, fun r' r'' m h1 h2 => ?_, fun m hm => ?_⟩
  · by_cases hr : r' = r
    · subst hr
      rw [put_same]
      refine chain_replace hc (fun m hm => hprev m (by rintro rfl; exact hna hm) ?_) (fun a₁ m a₂ he => hpt _ (after_ne ?_) (after_before hda he)) ?_
      · rintro b' rfl
        exact hab m hm m List.mem_cons_self rfl
      · intro h'
        exact hna (by rw [he]; exact List.mem_append_left _ h')
      · refine ⟨put_same _ _ _, ?_, ?_⟩
        · dsimp only
          rw [hptr]
          cases b with
          | nil => exact put_same _ _ _
          | cons x b =>
            dsimp only [List.head?_cons]
            rw [put_other _ _ (by rintro rfl; exact hnb List.mem_cons_self), put_same]
        · cases b with
          | nil =>
            show put _ _ _ _ = _
            rw [put_other _ _ hne, put_same, hptr]
            rfl
          | cons x b =>
            obtain ⟨q1, q2, q3⟩ := hq
            refine ⟨?_, ?_, chain_congr q3 (hpt _ ?_ ?_) (fun m hm => hpt _ ?_ ?_) fun m hm => hprev m ?_ ?_⟩
            · dsimp only
              rw [put_other _ _ hne, put_same, q1]
            · dsimp only
              rw [q1]
              exact put_same _ _ _
            · intro h'; cases h'; exact hnb List.mem_cons_self
            · exact hbne x List.mem_cons_self
            · intro h'; cases h'; exact hnb (List.mem_cons_of_mem _ hm)
            · exact hbne m (List.mem_cons_of_mem _ hm)
            · rintro rfl; exact hnb (List.mem_cons_of_mem _ hm)
            · intro b' he
              injection he with e1 e2
              subst e1
              exact (List.nodup_cons.1 hdb).1 hm
    · rw [put_other _ _ hr]
      have hm' : ∀ m ∈ ls r', m ∉ a ++ b := fun m hm h' => hr (hh.apart r' r m hm (by rw [hl]; exact h'))
      refine chain_congr (hh.chain r') (hpt _ (by simp) (after_root hr).symm) (fun m hm => hpt _ ?_ ?_) fun m hm => hprev m ?_ ?_
      · intro h'; cases h'; exact hn r' hm
      · exact fun h' => after_ne (fun h'' => hm' m hm (List.mem_append_left _ h'')) h'.symm
      · rintro rfl; exact hn r' hm
      · rintro b' rfl
        exact hm' m hm (List.mem_append_right _ List.mem_cons_self)
  · by_cases hr : r' = r
    · subst hr
      rw [put_same]
      exact (List.perm_middle.nodup_iff).2 (List.nodup_cons.2 ⟨hnr, hd⟩)
    · rw [put_other _ _ hr]; exact hh.once r'
  · have key : ∀ r', m ∈ put ls r (a ++ n :: b) r' → (m = n ∧ r' = r) ∨ (m ≠ n ∧ m ∈ ls r') := by
      intro r' h1
      by_cases hr : r' = r
      · subst hr
        rw [put_same] at h1
        by_cases hmn : m = n
        · exact .inl ⟨hmn, rfl⟩
        · refine .inr ⟨hmn, ?_⟩
          rw [hl]
          simpa [hmn] using h1
      · rw [put_other _ _ hr] at h1
        exact .inr ⟨fun e => hn r' (e ▸ h1), h1⟩
    rcases key r' h1 with ⟨e1, rfl⟩ | ⟨e1, e2⟩ <;> rcases key r'' h2 with ⟨f1, rfl⟩ | ⟨f1, f2⟩
    · rfl
    · exact absurd e1 f1
    · exact absurd f1 e1
    · exact hh.apart r' r'' m e2 f2
  · have hmr := hm r
    rw [put_same] at hmr
    have hmn : m ≠ n := by rintro rfl; exact hmr (by simp)
    have hmb : m ∉ b := fun h' => hmr (by simp [h'])
    have hma : m ∉ a := fun h' => hmr (by simp [h'])
    obtain ⟨l1, l2⟩ := hh.loose m fun r' => by
      by_cases hr : r' = r
      · subst hr; rw [hl]; simp [hma, hmb]
      · have := hm r'; rwa [put_other _ _ hr] at this
    refine ⟨(hprev m hmn ?_).trans l1, (hpt _ ?_ ?_).trans l2⟩
    · rintro b' rfl; exact hmb List.mem_cons_self
    · intro h'; cases h'; exact hmn rfl
    · exact fun h' => after_ne hma h'.symm

omit [DecidableEq R] in
theorem chain_prev {h : Heap R N} {p : Slot R N} {l : List N} (hc : Chain h p l) {n : N} (hn : n ∈ l) : (h.prev n).isSome = true := by
  induction l generalizing p with
  | nil => cases hn
  | cons m l ih =>
    rcases List.mem_cons.1 hn with rfl | hn
    · rw [hc.2.1]; rfl
    · exact ih hc.2.2 hn

/-- C146: a node that's in a list already is refused, rather than being in two of them. -/
theorem C146_refused {h : Heap R N} {ls : R → List N} (hh : Has h ls) {r : R} {n : N} (hn : n ∈ ls r) (p : Slot R N) : pushed n p h = none := by
  unfold pushed
  rw [if_pos (.inl (chain_prev (hh.chain r) hn))]

/-- C146: a node can be removed from the list that it's in without saying which one that is. -/
theorem C146_severed {h : Heap R N} {ls : R → List N} (hh : Has h ls) {r : R} {n : N} (hn : n ∈ ls r) :
    ∃ h', severed n h = some h' ∧ Has h' (put ls r ((ls r).erase n)) := by
  obtain ⟨a, b, hl⟩ := List.append_of_mem hn
  have hc := hh.chain r
  have hd := hh.once r
  rw [hl] at hc hd
  obtain ⟨hda, hdb, hab⟩ := List.nodup_append.1 hd
  have hna : n ∉ a := fun h => hab n h n List.mem_cons_self rfl
  have hnb := (List.nodup_cons.1 hdb).1
  obtain ⟨q1, q2, q3⟩ := chain_after hc
  have her : (ls r).erase n = a ++ b := by rw [hl, List.erase_append_right _ hna, List.erase_cons_head]
  rw [her]
  have hne : (.next n : Slot R N) ≠ after (.root r) a := (after_ne hna).symm
  have hbne : ∀ m ∈ b, (.next m : Slot R N) ≠ after (.root r) a := fun m hm h =>
    after_ne (fun h' => hab m h' m (List.mem_cons_of_mem _ hm) rfl) h.symm
  -- the pointers and the pointers back
  let ptr := put (put h.ptr (after (.root r) a) b.head?) (.next n) none
  let prev := put (match b.head? with
    | some m => put h.prev m (some (after (.root r) a))
    | none => h.prev) n none
  have hx : h.ptr (.next n) = b.head? := by
    cases b with
    | nil => exact q3
    | cons m b => exact q3.1
  have heq : severed n h = some ⟨ptr, prev⟩ := by
    unfold severed
    rw [q2]
    dsimp only
    rw [if_pos q1, put_other _ _ hne, hx]
    cases b with
    | nil => rfl
    | cons m b =>
      dsimp only [List.head?_cons]
      rw [if_pos q3.2.1]
      rfl
  have hpt : ∀ q, q ≠ .next n → q ≠ after (.root r) a → ptr q = h.ptr q := fun q h1 h2 => by
    show put _ _ _ _ = _
    rw [put_other _ _ h1, put_other _ _ h2]
  have hprev : ∀ m, m ≠ n → (∀ b', b ≠ m :: b') → prev m = h.prev m := by
    intro m h1 h2
    show put _ _ _ _ = _
    rw [put_other _ _ h1]
    cases b with
    | nil => rfl
    | cons x b => exact put_other _ _ (by rintro rfl; exact h2 b rfl)
  refine ⟨⟨ptr, prev⟩, heq, ⟨fun r' => ?_, fun r' => ?_, fun r' r'' m h1 h2 => ?_, fun m hm => ?_⟩⟩
  · by_cases hr : r' = r
    · subst hr
      rw [put_same]
      refine chain_replace hc (fun m hm => hprev m (by rintro rfl; exact hna hm) ?_) (fun a₁ m a₂ he => hpt _ (after_ne ?_) (after_before hda he)) ?_
      · rintro b' rfl
        exact hab m hm m (by simp) rfl
      · intro h'
        exact hna (by rw [he]; exact List.mem_append_left _ h')
      · have hp : ptr (after (.root r') a) = b.head? := by
          show put _ _ _ _ = _
          rw [put_other _ _ hne.symm, put_same]
        cases b with
        | nil => exact hp
        | cons x b =>
          refine ⟨hp, ?_, chain_congr q3.2.2 (hpt _ ?_ ?_) (fun m hm => hpt _ ?_ ?_) fun m hm => hprev m ?_ ?_⟩
          · show put _ _ _ _ = _
            rw [put_other _ _ (by rintro rfl; exact hnb List.mem_cons_self)]
            exact put_same _ _ _
          · intro h'; cases h'; exact hnb List.mem_cons_self
          · exact hbne x List.mem_cons_self
          · intro h'; cases h'; exact hnb (List.mem_cons_of_mem _ hm)
          · exact hbne m (List.mem_cons_of_mem _ hm)
          · rintro rfl; exact hnb (List.mem_cons_of_mem _ hm)
          · intro b' he
            injection he with e1 e2
            subst e1
            exact (List.nodup_cons.1 (List.nodup_cons.1 hdb).2).1 hm
    · rw [put_other _ _ hr]
      have hm' : ∀ m ∈ ls r', m ∉ a ++ n :: b := fun m hm h' => hr (hh.apart r' r m hm (by rw [hl]; exact h'))
      refine chain_congr (hh.chain r') (hpt _ (by simp) (after_root hr).symm) (fun m hm => hpt _ ?_ ?_) fun m hm => hprev m ?_ ?_
      · intro h'; cases h'; exact hm' n hm (by simp)
      · exact fun h' => after_ne (fun h'' => hm' m hm (List.mem_append_left _ h'')) h'.symm
      · rintro rfl; exact hm' m hm (by simp)
      · rintro b' rfl
        exact hm' m hm (by simp)
  · by_cases hr : r' = r
    · subst hr
      rw [put_same]
      exact List.nodup_append.2 ⟨hda, (List.nodup_cons.1 hdb).2, fun x h1 y h2 => hab x h1 y (List.mem_cons_of_mem _ h2)⟩
    · rw [put_other _ _ hr]; exact hh.once r'
  · have key : ∀ r', m ∈ put ls r (a ++ b) r' → m ∈ ls r' := by
      intro r' h1
      by_cases hr : r' = r
      · subst hr
        rw [put_same] at h1
        rw [hl]
        rcases List.mem_append.1 h1 with h1 | h1 <;> simp [h1]
      · rwa [put_other _ _ hr] at h1
    exact hh.apart r' r'' m (key r' h1) (key r'' h2)
  · have hmr := hm r
    rw [put_same] at hmr
    have hmb : m ∉ b := fun h' => hmr (by simp [h'])
    have hma : m ∉ a := fun h' => hmr (by simp [h'])
    by_cases hmn : m = n
    · subst hmn
      exact ⟨put_same _ _ _, put_same _ _ _⟩
    · obtain ⟨l1, l2⟩ := hh.loose m fun r' => by
        by_cases hr : r' = r
        · subst hr; rw [hl]; simp [hma, hmb, hmn]
        · have := hm r'; rwa [put_other _ _ hr] at this
      refine ⟨(hprev m hmn ?_).trans l1, (hpt _ ?_ ?_).trans l2⟩
      · rintro b' rfl; exact hmb List.mem_cons_self
      · intro h'; cases h'; exact hmn rfl
      · exact fun h' => after_ne hma h'.symm

/-- C146: a node that isn't in a list is refused. -/
theorem C146_unlisted {h : Heap R N} {ls : R → List N} (hh : Has h ls) {n : N} (hn : ∀ r, n ∉ ls r) : severed n h = none := by
  unfold severed
  rw [(hh.loose n hn).1]

/-! ## Concatenation -/

theorem walks_unique {f : Slot R N → Option N} {p q q' : Slot R N} (h : Walks f p q) (h' : Walks f p q') : q = q' := by
  induction h with
  | stop h1 =>
    cases h' with
    | stop _ => rfl
    | go h2 _ => rw [h1] at h2; cases h2
  | go h1 _ ih =>
    cases h' with
    | stop h2 => rw [h1] at h2; cases h2
    | go h2 h3 =>
      rw [h1] at h2
      cases h2
      exact ih h3

omit [DecidableEq R] [DecidableEq N] in
theorem walks_end {f : Slot R N → Option N} {p q : Slot R N} (h : Walks f p q) : f q = none := by
  induction h with
  | stop h => exact h
  | go _ _ ih => exact ih

theorem walks_chain {f : Slot R N → Option N} {p : Slot R N} {l : List N} (hc : Chain₁ f p l) : Walks f p (after p l) := by
  induction l generalizing p with
  | nil => exact .stop hc
  | cons n l ih =>
    rw [after_cons]
    exact .go hc.1 (ih hc.2)

theorem chain₁_of {h : Heap R N} {p : Slot R N} {l : List N} (hc : Chain h p l) : Chain₁ h.ptr p l := by
  induction l generalizing p with
  | nil => exact hc
  | cons n l ih => exact ⟨hc.1, ih hc.2.2⟩

/-- The pointer after a list that begins after `n` is that of `n` or of a member. -/
theorem after_next (n : N) (l : List N) : ∃ m ∈ n :: l, after (.next n : Slot R N) l = .next m := by
  unfold after
  cases h : l.getLast? with
  | none => exact ⟨n, List.mem_cons_self, rfl⟩
  | some m => exact ⟨m, List.mem_cons_of_mem _ (List.mem_of_getLast? h), rfl⟩

theorem chain_join {h : Heap R N} {n : N} {l : List N} {y : N} {k : List N} (hd : (n :: l).Nodup) (hc : Chain h (.next n) l) (hk : Chain h (.next y) k)
    (hy : y ∉ n :: l) (hdis : ∀ m ∈ k, m ∉ n :: l) (hyk : y ∉ k) :
    Chain ⟨put h.ptr (after (.next n) l) (some y), put h.prev y (some (after (.next n) l))⟩ (.next n) (l ++ y :: k) := by
  induction l generalizing n with
  | nil =>
    refine ⟨put_same _ _ _, put_same _ _ _, chain_congr hk (put_other _ _ ?_) (fun m hm => put_other _ _ ?_) fun m hm => put_other _ _ ?_⟩
    · intro he; cases he; exact hy List.mem_cons_self
    · intro he; cases he; exact hdis _ hm List.mem_cons_self
    · rintro rfl; exact hyk hm
  | cons m l ih =>
    rw [after_cons]
    have hd' := List.nodup_cons.1 hd
    refine ⟨?_, ?_, ih hd'.2 hc.2.2 (fun h' => hy (List.mem_cons_of_mem _ h')) fun x hx h' => hdis x hx (List.mem_cons_of_mem _ h')⟩
    · dsimp only
      rw [put_other _ _ ?_]
      · exact hc.1
      · obtain ⟨z, hz, hz'⟩ := after_next (R := R) m l
        rw [hz']
        intro he
        cases he
        exact hd'.1 hz
    · dsimp only
      rw [put_other _ _ (by rintro rfl; exact hy (by simp))]
      exact hc.2.1

/-- C146: the concatenation of two lists of nodes that have none in common. -/
theorem C146_catenated {h : Heap R N} {x y : Option N} {l k : List N} (hl : Run h x l) (hk : Run h y k) (hdl : l.Nodup) (hdk : k.Nodup)
    (hlk : ∀ n ∈ k, n ∉ l) : ∃ h' z, CatNodes h x y h' z ∧ Run h' z (l ++ k) := by
  cases l with
  | nil =>
    cases hl
    exact ⟨h, y, .right, hk⟩
  | cons n l =>
    obtain ⟨rfl, hc⟩ := hl
    cases k with
    | nil =>
      cases hk
      rw [List.append_nil]
      exact ⟨h, some n, .left, rfl, hc⟩
    | cons m k =>
      obtain ⟨rfl, hc'⟩ := hk
      refine ⟨_, _, .both (walks_chain (chain₁_of hc)), rfl, ?_⟩
      exact chain_join hdl hc hc' (hlk m List.mem_cons_self) (fun x hx => hlk x (List.mem_cons_of_mem _ hx)) (List.nodup_cons.1 hdk).1

omit [DecidableEq R] in
theorem chain₁_congr {f g : Slot R N → Option N} {p : Slot R N} {l : List N} (hc : Chain₁ f p l) (hp : g p = f p)
    (hn : ∀ n ∈ l, g (.next n) = f (.next n)) : Chain₁ g p l := by
  induction l generalizing p with
  | nil => exact hp.trans hc
  | cons n l ih =>
    exact ⟨hp.trans hc.1, ih hc.2 (hn n List.mem_cons_self) fun m hm => hn m (List.mem_cons_of_mem _ hm)⟩

theorem chain₁_join {f : Slot R N → Option N} {n : N} {l : List N} {y : N} {k : List N} (hd : (n :: l).Nodup) (hc : Chain₁ f (.next n) l)
    (hk : Chain₁ f (.next y) k) (hy : y ∉ n :: l) (hdis : ∀ m ∈ k, m ∉ n :: l) :
    Chain₁ (put f (after (.next n) l) (some y)) (.next n) (l ++ y :: k) := by
  induction l generalizing n with
  | nil =>
    refine ⟨put_same _ _ _, chain₁_congr hk (put_other _ _ ?_) fun m hm => put_other _ _ ?_⟩
    · intro he; cases he; exact hy List.mem_cons_self
    · intro he; cases he; exact hdis _ hm List.mem_cons_self
  | cons m l ih =>
    rw [after_cons]
    have hd' := List.nodup_cons.1 hd
    refine ⟨?_, ih hd'.2 hc.2 (fun h' => hy (List.mem_cons_of_mem _ h')) fun x hx h' => hdis x hx (List.mem_cons_of_mem _ h')⟩
    rw [put_other _ _ ?_]
    · exact hc.1
    · obtain ⟨z, hz, hz'⟩ := after_next (R := R) m l
      rw [hz']
      intro he
      cases he
      exact hd'.1 hz

/-- C146: the concatenation of two lists of edges that have none in common. -/
theorem C146_joined {f : Slot R N → Option N} {x y : Option N} {l k : List N} (hl : Run₁ f x l) (hk : Run₁ f y k) (hdl : l.Nodup)
    (hlk : ∀ n ∈ k, n ∉ l) : ∃ g z, CatEdges f x y g z ∧ Run₁ g z (l ++ k) := by
  cases l with
  | nil =>
    cases hl
    exact ⟨f, y, .right, hk⟩
  | cons n l =>
    obtain ⟨rfl, hc⟩ := hl
    cases k with
    | nil =>
      cases hk
      rw [List.append_nil]
      exact ⟨f, some n, .left, rfl, hc⟩
    | cons m k =>
      obtain ⟨rfl, hc'⟩ := hk
      refine ⟨_, _, .both (walks_chain hc), rfl, ?_⟩
      exact chain₁_join hdl hc hc' (hlk m List.mem_cons_self) fun x hx => hlk x (List.mem_cons_of_mem _ hx)

theorem chain₁_next {f : Slot R N → Option N} {n : N} {l : List N} (hc : Chain₁ f (.next n) l) {m : N} (hm : m ∈ n :: l) :
    (.next m : Slot R N) = after (.next n) l ∨ ∃ m' ∈ l, f (.next m) = some m' := by
  induction l generalizing n with
  | nil =>
    rw [List.mem_singleton.1 hm]
    exact .inl rfl
  | cons x l ih =>
    rcases List.mem_cons.1 hm with rfl | hm
    · exact .inr ⟨x, List.mem_cons_self, hc.1⟩
    · rw [after_cons]
      rcases ih hc.2 hm with h | ⟨m', h1, h2⟩
      · exact .inl h
      · exact .inr ⟨m', List.mem_cons_of_mem _ h1, h2⟩

/-- C146: if a list is concatenated with itself, there's no end to it. -/
theorem C146_cyclic {f g : Slot R N → Option N} {n : N} {l : List N} {z : Option N} (hl : Run₁ f (some n) (n :: l)) (hd : (n :: l).Nodup)
    (hg : CatEdges f (some n) (some n) g z) : (¬ ∃ q, Walks g (.next n) q) ∧ ¬ ∃ k, Run₁ g (some n) k := by
  cases hg with
  | @both _ _ p hw =>
  have hp := walks_unique hw (walks_chain hl.2)
  subst hp
  have main : ∀ q, ¬ Walks (put f (after (.next n) l) (some n)) (.next n) q := by
    intro q hq
    have go : ∀ {p q : Slot R N}, Walks (put f (after (.next n) l) (some n)) p q → ∀ m ∈ n :: l, p = .next m → False := by
      intro p q hq
      induction hq with
      | stop hs =>
        rintro m hm rfl
        by_cases he : (.next m : Slot R N) = after (.next n) l
        · rw [he, put_same] at hs; cases hs
        · rw [put_other _ _ he] at hs
          rcases chain₁_next hl.2 hm with h1 | ⟨m', _, h1⟩
          · exact he h1
          · rw [hs] at h1; cases h1
      | go hx _ ih =>
        rintro m hm rfl
        by_cases he : (.next m : Slot R N) = after (.next n) l
        · rw [he, put_same] at hx
          cases hx
          exact ih n List.mem_cons_self rfl
        · rw [put_other _ _ he] at hx
          rcases chain₁_next hl.2 hm with h1 | ⟨m', h2, h1⟩
          · exact he h1
          · rw [hx] at h1
            cases h1
            exact ih _ (List.mem_cons_of_mem _ h2) rfl
    exact go hq n List.mem_cons_self rfl
  refine ⟨fun ⟨q, hq⟩ => main q hq, ?_⟩
  rintro ⟨k, hk⟩
  cases k with
  | nil => cases hk
  | cons m k =>
    obtain ⟨hm, hk⟩ := hk
    cases hm
    exact main _ (walks_chain hk)

/-! ## Edges, packets and buckets -/

/-- C146: an edge on its own becomes the first one of a list. -/
theorem C146_edge_pushed {f : Slot R N → Option N} {r : R} {l : List N} (hl : Chain₁ f (.root r) l) {e : N} (he : e ∉ l) (hn : f (.next e) = none) :
    ∃ g, pushEdge e (.root r) f = some g ∧ Chain₁ g (.root r) (e :: l) := by
  refine ⟨_, by unfold pushEdge; rw [if_neg (by rw [hn]; simp)], put_same _ _ _, ?_⟩
  cases l with
  | nil =>
    show put _ _ _ _ = _
    rw [put_other _ _ (by simp), put_same]
    exact hl
  | cons m l =>
    refine ⟨?_, chain₁_congr hl.2 ?_ fun x hx => ?_⟩
    · rw [put_other _ _ (by simp), put_same]
      exact hl.1
    · rw [put_other _ _ (by simp), put_other _ _ (by simp; rintro rfl; exact he List.mem_cons_self)]
    · rw [put_other _ _ (by simp), put_other _ _ (by simp; rintro rfl; exact he (List.mem_cons_of_mem _ hx))]

/-- C146: the first edge of a list, if there is one, is taken from it and is on its own after that. -/
theorem C146_edge_popped {f : Slot R N → Option N} {r : R} {l : List N} (hl : Chain₁ f (.root r) l) (hd : l.Nodup) :
    match l with
    | [] => poppedEdge (.root r) f = none
    | e :: l => ∃ g, poppedEdge (.root r) f = some (g, e) ∧ Chain₁ g (.root r) l ∧ g (.next e) = none := by
  cases l with
  | nil =>
    show poppedEdge _ _ = _
    unfold poppedEdge
    rw [show f (.root r) = none from hl]
  | cons e l =>
    have hd' := List.nodup_cons.1 hd
    refine ⟨_, by unfold poppedEdge; rw [hl.1], ?_, put_same _ _ _⟩
    cases l with
    | nil =>
      show put _ _ _ _ = _
      rw [put_other _ _ (by simp), put_same]
      exact hl.2
    | cons m l =>
      refine ⟨?_, chain₁_congr hl.2.2 ?_ fun x hx => ?_⟩
      · rw [put_other _ _ (by simp), put_same]
        exact hl.2.1
      · rw [put_other _ _ (by simp; rintro rfl; exact hd'.1 List.mem_cons_self), put_other _ _ (by simp)]
      · rw [put_other _ _ (by simp; rintro rfl; exact hd'.1 (List.mem_cons_of_mem _ hx)), put_other _ _ (by simp)]

/-- C146: a list of edges is appended to a queue. -/
theorem C146_enqueued {f : Slot R N → Option N} {front back : R} (hfb : front ≠ back) {q : List N} (hq : Chain₁ f (.root front) q)
    (hb : f (.root back) = q.getLast?) {e : N} {l : List N} (hl : Chain₁ f (.next e) l) (hd : (q ++ e :: l).Nodup) :
    ∃ g, Enqueued e front back f g ∧ Chain₁ g (.root front) (q ++ e :: l) ∧ g (.root back) = (q ++ e :: l).getLast? := by
  obtain ⟨b, hbm, hb'⟩ := after_next (R := R) e l
  have hlast : (e :: l).getLast? = some b := by
    unfold after at hb'
    rw [List.getLast?_cons]
    cases h : l.getLast? <;> rw [h] at hb' <;> cases hb' <;> rfl
  have hlast' : (q ++ e :: l).getLast? = some b := by rw [List.getLast?_append_of_ne_nil _ (by simp), hlast]
  rcases List.eq_nil_or_concat q with rfl | ⟨q', x, rfl⟩
  · have hw : Walks (put (put f (.root front) (some e)) (.root back) (some e)) (.next e) (.next b) := by
      rw [← hb']
      exact walks_chain (chain₁_congr hl (by rw [put_other _ _ (by simp), put_other _ _ (by simp)])
        fun m _ => by rw [put_other _ _ (by simp), put_other _ _ (by simp)])
    refine ⟨_, .first hq hb rfl hw, ⟨?_, chain₁_congr hl ?_ fun m _ => ?_⟩, by rw [put_same, hlast']⟩
    · rw [put_other _ _ (by simp [hfb]), put_other _ _ (by simp [hfb]), put_same]
    · rw [put_other _ _ (by simp), put_other _ _ (by simp), put_other _ _ (by simp)]
    · rw [put_other _ _ (by simp), put_other _ _ (by simp), put_other _ _ (by simp)]
  · rw [List.concat_eq_append] at *
    have hb : f (.root back) = some x := by rw [hb, List.getLast?_append]; rfl
    obtain ⟨hd1, hd2, hd3⟩ := List.nodup_append.1 hd
    -- the list from the first edge on
    obtain ⟨y, q'', hqy⟩ : ∃ y q'', q' ++ [x] = y :: q'' := by
      cases q' with
      | nil => exact ⟨x, [], rfl⟩
      | cons y q' => exact ⟨y, q' ++ [x], rfl⟩
    have haft : after (.next y : Slot R N) q'' = .next x := by
      rw [← after_cons (.next y), ← hqy, after_snoc]
    rw [hqy] at hq hd1 hd3 ⊢
    have hxl : f (.next x) = none := by
      rw [← haft]
      exact walks_end (walks_chain hq.2)
    have hx : x ∈ y :: q'' := by rw [← hqy]; simp
    have hj := chain₁_join hd1 hq.2 hl (fun h => hd3 e h e List.mem_cons_self rfl) fun m hm h => hd3 m h m (List.mem_cons_of_mem _ hm) rfl
    rw [haft] at hj
    have hw : Walks (put f (.next x) (some e)) (.next e) (.next b) := by
      rw [← hb']
      exact walks_chain (chain₁_congr hl (put_other _ _ (by simp; rintro rfl; exact hd3 _ hx _ List.mem_cons_self rfl))
        fun m hm => put_other _ _ (by simp; rintro rfl; exact hd3 _ hx _ (List.mem_cons_of_mem _ hm) rfl))
    refine ⟨_, .later (by rw [hq.1]; rfl) hb hxl rfl hw, ⟨?_, chain₁_congr hj ?_ fun m _ => ?_⟩, by rw [put_same, ← hlast', hqy]⟩
    · rw [put_other _ _ (by simp [hfb]), put_other _ _ (by simp)]
      exact hq.1
    · rw [put_other _ _ (by simp)]
    · rw [put_other _ _ (by simp)]

/-! ## Workers taking nodes from a common list -/

/-- What holds while workers do that: each one has a list of what it's pushed, and nodes that have been severed are on their own.  Nothing is said
about nodes that haven't been. -/
structure Partial (h : Heap R N) (ls : R → List N) (d f : List N) : Prop where
  chain : ∀ r, Chain h (.root r) (ls r)
  mem : ∀ r n, n ∈ ls r → n ∈ f
  once : ∀ r, (ls r).Nodup
  apart : ∀ r r' n, n ∈ ls r → n ∈ ls r' → r = r'
  loose : ∀ n ∈ d, h.prev n = none ∧ h.ptr (.next n) = none ∧ n ∉ f
  nodup : d.Nodup

theorem perform_ok (os : List (Op R N)) {h : Heap R N} {ls : R → List N} {d f : List N} (hi : Partial h ls d f) (ho : Orderly d f os) :
    ∃ h', perform os h = some h' ∧ ∀ r, Chain h' (.root r) (pushes r os ++ ls r) ∧ (pushes r os ++ ls r).Nodup := by
  induction os generalizing h ls d f with
  | nil => exact ⟨h, rfl, fun r => ⟨hi.chain r, hi.once r⟩⟩
  | cons o os ih =>
    cases ho with
    | @sever _ _ n _ h1 h2 h3 =>
      refine ih (h := halfSevered n h) ⟨fun r => ?_, hi.mem, hi.once, hi.apart, fun m hm => ?_, List.nodup_cons.2 ⟨h1, hi.nodup⟩⟩ h3
      · have hne : ∀ m ∈ ls r, m ≠ n := by
          rintro m hm rfl
          exact h2 (hi.mem r m hm)
        unfold halfSevered
        refine chain_congr (hi.chain r) ?_ (fun m hm => ?_) fun m hm => ?_ <;> dsimp only
        · exact put_other _ _ (by simp)
        · exact put_other _ _ (by simp [hne m hm])
        · exact put_other _ _ (hne m hm)
      · by_cases hmn : m = n
        · subst hmn
          exact ⟨put_same _ _ _, put_same _ _ _, h2⟩
        · have hm' : m ∈ d := by simpa [hmn] using hm
          obtain ⟨l1, l2, l3⟩ := hi.loose m hm'
          exact ⟨(put_other _ _ hmn).trans l1, (put_other _ _ (by simp [hmn])).trans l2, l3⟩
    | @push _ _ n r _ h1 h2 =>
      obtain ⟨l1, l2, l3⟩ := hi.loose n h1
      have hn : ∀ r, n ∉ ls r := fun r' h' => l3 (hi.mem r' n h')
      -- the result of pushing it
      have hdiff : ∀ m, m ≠ n → (∀ l, ls r ≠ m :: l) → (match h.ptr (.root r) with
          | some m => put (put h.prev n (some (.root r))) m (some (.next n))
          | none => put h.prev n (some (.root r))) m = h.prev m := by
        intro m e1 e2
        have hc := hi.chain r
        cases hl : ls r with
        | nil =>
          rw [hl] at hc
          rw [show h.ptr (.root r) = none from hc]
          exact put_other _ _ e1
        | cons x l =>
          rw [hl] at hc
          rw [hc.1]
          dsimp only
          rw [put_other _ _ (by rintro rfl; exact e2 l hl), put_other _ _ e1]
      have hp : pushed n (.root r) h = some ⟨put (put h.ptr (.next n) (h.ptr (.root r))) (.root r) (some n), match h.ptr (.root r) with
          | some m => put (put h.prev n (some (.root r))) m (some (.next n))
          | none => put h.prev n (some (.root r))⟩ := by
        unfold pushed
        rw [if_neg (by rw [l1, l2]; simp)]
        rfl
      have hpt : ∀ q, q ≠ .next n → q ≠ .root r → put (put h.ptr (.next n) (h.ptr (.root r))) (.root r) (some n) q = h.ptr q := fun q e1 e2 => by
        rw [put_other _ _ e2, put_other _ _ e1]
      have hnew : Partial ⟨put (put h.ptr (.next n) (h.ptr (.root r))) (.root r) (some n), match h.ptr (.root r) with
          | some m => put (put h.prev n (some (.root r))) m (some (.next n))
          | none => put h.prev n (some (.root r))⟩ (put ls r (n :: ls r)) (d.erase n) (n :: f) := by
        refine ⟨fun r' => ?_, fun r' m hm => ?_, fun r' => ?_, fun r' r'' m e1 e2 => ?_, fun m hm => ?_, hi.nodup.erase n⟩
        · by_cases hr : r' = r
          · subst hr
            rw [put_same]
            have hc := hi.chain r'
            have hd := hi.once r'
            have hn' := hn r'
            cases hl : ls r' with
            | nil =>
              rw [hl] at hc
              have hc' : h.ptr (.root r') = none := hc
              rw [hc']
              refine ⟨put_same _ _ _, put_same _ _ _, ?_⟩
              show put (put h.ptr (.next n) none) (.root r') (some n) (.next n) = none
              rw [put_other _ _ (by simp), put_same]
            | cons x l =>
              rw [hl] at hc hd hn'
              rw [hc.1]
              have hd' := List.nodup_cons.1 hd
              have hxn : n ≠ x := by rintro rfl; exact hn' List.mem_cons_self
              have hln : ∀ m ∈ l, m ≠ n := by rintro m hm rfl; exact hn' (List.mem_cons_of_mem _ hm)
              refine ⟨put_same _ _ _, ?_, ?_, put_same _ _ _, chain_congr hc.2.2 ?_ (fun m hm => ?_) fun m hm => ?_⟩
              · dsimp only
                rw [put_other _ _ hxn, put_same]
              · dsimp only
                rw [put_other _ _ (by simp), put_same]
              · dsimp only
                rw [put_other _ _ (by simp), put_other _ _ (by simp [hxn.symm])]
              · dsimp only
                rw [put_other _ _ (by simp), put_other _ _ (by simp [hln m hm])]
              · dsimp only
                rw [put_other _ _ (by rintro rfl; exact hd'.1 hm), put_other _ _ (hln m hm)]
          · rw [put_other _ _ hr]
            refine chain_congr (hi.chain r') (hpt _ (by simp) (by simp [hr])) (fun m hm => hpt (.next m) ?_ ?_) fun m hm => hdiff m ?_ fun l hl => ?_
            · intro he; cases he; exact hn r' hm
            · simp
            · rintro rfl; exact hn r' hm
            · exact hr (hi.apart r' r m hm (by rw [hl]; exact List.mem_cons_self))
        · by_cases hr : r' = r
          · subst hr
            rw [put_same] at hm
            rcases List.mem_cons.1 hm with rfl | hm
            · exact List.mem_cons_self
            · exact List.mem_cons_of_mem _ (hi.mem r' m hm)
          · rw [put_other _ _ hr] at hm
            exact List.mem_cons_of_mem _ (hi.mem r' m hm)
        · by_cases hr : r' = r
          · subst hr
            rw [put_same]
            exact List.nodup_cons.2 ⟨hn r', hi.once r'⟩
          · rw [put_other _ _ hr]; exact hi.once r'
        · have key : ∀ r₁, m ∈ put ls r (n :: ls r) r₁ → (m = n ∧ r₁ = r) ∨ (m ≠ n ∧ m ∈ ls r₁) := by
            intro r₁ h1
            by_cases hr : r₁ = r
            · subst hr
              rw [put_same] at h1
              by_cases hmn : m = n
              · exact .inl ⟨hmn, rfl⟩
              · exact .inr ⟨hmn, by simpa [hmn] using h1⟩
            · rw [put_other _ _ hr] at h1
              exact .inr ⟨fun e => hn r₁ (e ▸ h1), h1⟩
          rcases key r' e1 with ⟨g1, rfl⟩ | ⟨g1, g2⟩ <;> rcases key r'' e2 with ⟨f1, rfl⟩ | ⟨f1, f2⟩
          · rfl
          · exact absurd g1 f1
          · exact absurd f1 g1
          · exact hi.apart r' r'' m g2 f2
        · have hmn : m ≠ n := by
            rintro rfl
            exact (List.Nodup.not_mem_erase hi.nodup) hm
          obtain ⟨k1, k2, k3⟩ := hi.loose m (List.mem_of_mem_erase hm)
          refine ⟨(hdiff m hmn fun l hl => k3 (hi.mem r m (by rw [hl]; exact List.mem_cons_self))).trans k1,
            (hpt _ (by simp [hmn]) (by simp)).trans k2, ?_⟩
          rw [List.mem_cons]
          rintro (e | e)
          · exact hmn e
          · exact k3 e
      obtain ⟨h', g1, g2⟩ := ih hnew h2
      refine ⟨h', by rw [perform, hp]; exact g1, fun r' => ?_⟩
      have := g2 r'
      by_cases hr : r = r'
      · subst hr
        rw [put_same] at this
        simpa [pushes] using this
      · rw [put_other _ _ (Ne.symm hr)] at this
        simpa [pushes, hr] using this

/-- C146: any number of workers, each with a list of its own, take nodes from lists in common: as long as each node is severed before it's pushed,
and by only one of them, each one's list is made of just what it has pushed in the end, whatever the lists were and in whatever order that
happened. -/
theorem C146_taken (os : List (Op R N)) {h : Heap R N} (hr : ∀ r, h.ptr (.root r) = none) (ho : Orderly [] [] os) :
    ∃ h', perform os h = some h' ∧ ∀ r, Chain h' (.root r) (pushes r os) ∧ (pushes r os).Nodup := by
  obtain ⟨h', h1, h2⟩ := perform_ok (ls := fun _ => []) os
    ⟨hr, fun _ _ hn => (by cases hn), fun _ => List.nodup_nil, fun _ _ _ hn => (by cases hn), fun _ hn => (by cases hn), List.nodup_nil⟩ ho
  exact ⟨h', h1, fun r => by simpa using h2 r⟩

/-! ## Examples -/

/-- Variable 0 has the list of nodes 1, 2 and 3, and variable 1 that of 4. -/
def exHeap : Heap Nat Nat where
  ptr := fun
    | .root 0 => some 1
    | .root 1 => some 4
    | .next 1 => some 2
    | .next 2 => some 3
    | _ => none
  prev := fun
    | 1 => some (.root 0)
    | 2 => some (.next 1)
    | 3 => some (.next 2)
    | 4 => some (.root 1)
    | _ => none

def exLists : Nat → List Nat
  | 0 => [1, 2, 3]
  | 1 => [4]
  | _ => []

theorem exHeap_has : Has exHeap exLists where
  chain := fun r => by
    match r with
    | 0 => exact ⟨rfl, rfl, rfl, rfl, rfl, rfl, rfl⟩
    | 1 => exact ⟨rfl, rfl, rfl⟩
    | r + 2 => rfl
  once := fun r => by
    match r with
    | 0 => decide
    | 1 => decide
    | r + 2 => exact List.nodup_nil
  apart := fun r r' n h h' => by
    match r, r' with
    | 0, 0 => rfl
    | 1, 1 => rfl
    | 0, 1 => simp [exLists] at h h'; omega
    | 1, 0 => simp [exLists] at h h'; omega
    | r + 2, _ => simp [exLists] at h
    | 0, r' + 2 => simp [exLists] at h'
    | 1, r' + 2 => simp [exLists] at h'
  loose := fun n h => by
    have h0 := h 0
    have h1 := h 1
    simp [exLists] at h0 h1
    obtain ⟨a, b, c⟩ := h0
    match n with
    | 0 => exact ⟨rfl, rfl⟩
    | 1 => exact absurd rfl a
    | 2 => exact absurd rfl b
    | 3 => exact absurd rfl c
    | 4 => exact absurd rfl h1
    | n + 5 => exact ⟨rfl, rfl⟩

/-- Node 2 is moved from the middle of a list to that at variable 1, after its first member. -/
example : ∃ h h', severed 2 exHeap = some h ∧ pushed 2 (.next 4) h = some h' ∧ Chain h' (.root 0) [1, 3] ∧ Chain h' (.root 1) [4, 2] := by
  obtain ⟨h, h1, h2⟩ := C146_severed exHeap_has (r := 0) (n := 2) (by simp [exLists])
  obtain ⟨h', h3, h4⟩ := C146_pushed h2 (r := 1) (a := [4]) (b := []) rfl (n := 2) (fun r => by
    match r with
    | 0 => decide
    | 1 => decide
    | r + 2 => exact fun h => (by cases h))
  exact ⟨h, h', h1, h3, h4.chain 0, h4.chain 1⟩

/-- Two workers take nodes from `exHeap`, to lists at variables 5 and 6. -/
example : Orderly [] [] [.sever 2, .sever 1, .push 1 5, .sever 3, .push 2 6, .push 3 5] ∧
    pushes 5 [.sever 2, .sever 1, .push 1 5, .sever 3, .push 2 6, .push 3 5] = [3, 1] ∧
    pushes 6 [.sever 2, .sever 1, .push 1 5, .sever 3, .push 2 6, .push 3 5] = [2] :=
  ⟨.sever (by decide) (by decide) (.sever (by decide) (by decide) (.push (by decide) (.sever (by decide) (by decide) (.push (by decide)
    (.push (by decide) .done))))), rfl, rfl⟩

/-- Two lists of edges that meet the hypotheses of `C146_joined` and `C146_enqueued`. -/
example : Run₁ exHeap.ptr (some 1) [1, 2, 3] ∧ Run₁ exHeap.ptr (some 4) [4] ∧ Chain₁ exHeap.ptr (.root 0) [1, 2, 3] ∧
    Chain₁ exHeap.ptr (.next 4) [] := ⟨⟨rfl, rfl, rfl, rfl⟩, ⟨rfl, rfl⟩, ⟨rfl, rfl, rfl, rfl⟩, rfl⟩

end Cru.Links
