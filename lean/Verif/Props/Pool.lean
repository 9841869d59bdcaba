import Verif.Proofs.Pool

/-!
# C144: the pool of locks
-/

namespace Cru.Pool

variable {A X L : Type} [DecidableEq A] [DecidableEq L]

/-! ## No deadlocks -/

/-- C144: as long as no thread waits for anything while it has a lock, some thread can take a step, unless all have ended. -/
theorem C144_live {ts : List (Code A X L)} {m : A → X} {s : State A X L} (hp : ∀ c ∈ ts, Polite [] none c) (h : Reach (init ts m) s) :
    Ended s ∨ ∃ t s', step t s = some s' := by
  by_cases hs : ∃ t s', step t s = some s'
  · exact .inr hs
  · push Not at hs
    obtain ⟨held, kids, hi⟩ := orderly_reach hp h
    exact .inl (orderly_live hi fun t => Option.eq_none_iff_forall_ne_some.2 (hs t))

/-- C144: they all end, in whatever order they're scheduled. -/
theorem C144_ends {ts : List (Code A X L)} {m : A → X} (hp : ∀ c ∈ ts, Polite [] none c) (f : Nat → State A X L) (h0 : f 0 = init ts m)
    (hf : ∀ i, (∃ t, step t (f i) = some (f (i + 1))) ∨ (∀ t, step t (f i) = none) ∧ f (i + 1) = f i) : ∃ i, Ended (f i) := by
  have hr : ∀ i, Reach (init ts m) (f i) := by
    intro i
    induction i with
    | zero => rw [h0]; exact .init
    | succ i ih =>
      rcases hf i with ⟨t, ht⟩ | ⟨-, he⟩
      · exact .step t ih ht
      · rw [he]; exact ih
  obtain ⟨i, hi⟩ := ends f fun i => (hf i).imp_right And.left
  refine ⟨i, ?_⟩
  rcases C144_live hp (hr i) with h | ⟨t, s', h⟩
  · exact h
  · rw [hi t] at h; cases h

/-- C144: the library's operations on the pool are polite if what's done in critical sections is. -/
theorem C144_polite (idx : A → L) (a : A) {kids : List Nat} :
    (∀ k : X → Code A X L, (∀ x, Polite kids none (k x)) → Polite kids none (read idx a k)) ∧
    (∀ (x : X) (k : Code A X L), Polite kids none k → Polite kids none (write idx a x k)) ∧
    (∀ k : Code A X L, Polite kids (some (idx a)) k → Polite kids none (lockForWriting idx a k)) ∧
    ∀ (x : X) (k : Code A X L), Polite kids none k → Polite kids (some (idx a)) (unlockForReading idx a x k) :=
  ⟨fun _ h => .rdlock (.load fun x => .unlock (h x)), fun _ _ h => .wrlock (.store (.unlock h)), fun _ h => .wrlock h,
    fun _ _ h => .store (.unlock h)⟩

section Mutation

variable {N E : Type} [DecidableEq N] [DecidableEq E] [Zero X] [One X] [DecidableEq X]

theorem polite_look {kids : List Nat} {held : Option L} (s : Sight) (lab : E → Loc N E) (rem : E → N) (es : List E)
    {k : List (X × X) → Code (Loc N E) X L} (h : ∀ r, Polite kids held (k r)) : Polite kids held (look s lab rem es k) := by
  induction es generalizing k with
  | nil => exact h _
  | cons e es ih =>
    cases s with
    | nothing => exact h _
    | labels => exact .load fun x => ih fun r => h _
    | all => exact .load fun x => .load fun w => ih fun r => h _

variable {idx : Loc N E → L} {G : Shape N E} {K : Kernel (Loc N E) X L}

theorem polite_permeate {kids : List Nat} {held : Option L} {f : X → X → X → Act (Loc N E) X L} (hf : ∀ v x w, Modest (f v x w)) (v : X)
    (es : List E) {k : Code (Loc N E) X L} (h : Polite kids held k) : Polite kids held (permeate G f v es k) := by
  induction es with
  | nil => exact h
  | cons e es ih => exact .load fun x => .load fun w => hf _ _ _ _ _ _ fun y => .store ih

theorem polite_reflect {kids : List Nat} {held : Option L} (es : List E) {k : Code (Loc N E) X L} (h : Polite kids held k) :
    Polite kids held (reflect es k) := by
  induction es with
  | nil => exact h
  | cons e es ih => exact .load fun x => .store ih

theorem polite_inside {kids : List Nat} (hK : K.Modest) (n : N) (v : Option X) {k : Code (Loc N E) X L} (h : Polite kids none k) :
    Polite kids none (inside idx G K n v k) := by
  unfold inside
  refine .wrlock ?_
  dsimp only
  have h1 : Polite kids (some (idx (.marked n))) (unlockForReading idx (.marked n) 1 k) := .store (.unlock h)
  cases he : K.eop with
  | none =>
    cases v with
    | none => exact h1
    | some y => exact .store h1
  | some f =>
    cases v with
    | none => exact .load fun y => polite_permeate (hK.2 f he) _ _ (polite_reflect _ h1)
    | some y => exact polite_permeate (hK.2 f he) _ _ (polite_reflect _ (.store h1))

theorem polite_mutate {kids : List Nat} (hK : K.Modest) (n : N) {k : Code (Loc N E) X L} (h : Polite kids none k) :
    Polite kids none (mutate idx G K n k) := by
  unfold mutate
  cases hv : K.vop with
  | none => exact polite_inside hK n none h
  | some f =>
    exact .load fun v => polite_look _ _ _ _ fun i => polite_look _ _ _ _ fun o => hK.1 f hv _ _ _ _ _ _ fun y => polite_inside hK n _ h

theorem polite_quiescent {kids : List Nat} (es : List E) {k : Bool → Code (Loc N E) X L} (h : ∀ b, Polite kids none (k b)) :
    Polite kids none (quiescent idx G es k) := by
  induction es with
  | nil => exact h _
  | cons e es ih =>
    refine .rdlock (.load fun x => .unlock ?_)
    dsimp only
    by_cases hx : x = 0
    · rw [if_pos hx]; exact h _
    · rw [if_neg hx]; exact ih

theorem polite_arrivals {kids : List Nat} (hK : K.Modest) (ns : List N) : Polite kids none (arrivals idx G K ns) := by
  induction ns with
  | nil => exact .done
  | cons n ns ih =>
    refine .load fun x => ?_
    by_cases hx : x = 0
    · rw [if_pos hx]
      refine polite_quiescent _ fun b => ?_
      cases b with
      | false => exact ih
      | true => exact polite_mutate hK n ih
    · rw [if_neg hx]; exact ih

theorem polite_worker {kids : List Nat} (hK : K.Modest) (ss ns : List N) : Polite kids none (worker idx G K ss ns) := by
  unfold worker
  induction ss with
  | nil => exact polite_arrivals hK ns
  | cons n ss ih => exact polite_mutate hK n ih

/-- C144: in particular the workers of a mutation with functions that keep to themselves always come to an end, however many there are and
whichever nodes they get. -/
theorem C144_mutation (hK : K.Modest) (jobs : List (List N × List N)) {m : Loc N E → X} (f : Nat → State (Loc N E) X L)
    (h0 : f 0 = init (jobs.map fun j => worker idx G K j.1 j.2) m)
    (hf : ∀ i, (∃ t, step t (f i) = some (f (i + 1))) ∨ (∀ t, step t (f i) = none) ∧ f (i + 1) = f i) : ∃ i, Ended (f i) := by
  refine C144_ends (fun c hc => ?_) f h0 hf
  obtain ⟨j, -, rfl⟩ := List.mem_map.1 hc
  exact polite_worker hK j.1 j.2

/-- Ordinary functions keep to themselves. -/
theorem modest_kernel (o : Ops X) : (o.kernel : Kernel A X L).Modest := by
  constructor
  · intro f hf v i w
    obtain ⟨g, -, rfl⟩ := Option.map_eq_some_iff.1 hf
    exact fun _ _ k h => h _
  · intro f hf v i w
    obtain ⟨g, -, rfl⟩ := Option.map_eq_some_iff.1 hf
    exact fun _ _ k h => h _

end Mutation

/-! ## No interference -/

/-- C144: if all threads access a place only with its lock, there's no data race there. -/
theorem C144_atomic {a : A} {l : L} {ts : List (Code A X L)} {m : A → X} {s : State A X L} (hg : ∀ c ∈ ts, Guarded a l false false c)
    (h : Reach (init ts m) s) {t u : Nat} {c d : Code A X L} {w : Bool} (htu : t ≠ u) (hc : s.threads[t]? = some c)
    (hd : s.threads[u]? = some d) (h1 : c.Accesses a true) : ¬ d.Accesses a w :=
  fun h2 => watched_race (watched_reach hg h) htu hc hd h1 h2

/-- C144: reading and writing with the library's operations is like that, whatever else uses the same lock. -/
theorem C144_guarded (idx : A → L) (a b : A) :
    (∀ k : X → Code A X L, (∀ x, Guarded a (idx a) false false (k x)) → Guarded a (idx a) false false (read idx b k)) ∧
    ∀ (x : X) (k : Code A X L), Guarded a (idx a) false false k → Guarded a (idx a) false false (write idx b x k) := by
  constructor
  · intro k h
    by_cases hi : idx b = idx a
    · unfold read
      rw [hi]
      exact .rdlock (.load (fun _ => .inl rfl) fun x => .unlock (h x))
    · exact .rdlock_other hi (.load (fun e => absurd (e ▸ rfl) hi) fun x => .unlock_other hi (h x))
  · intro x k h
    by_cases hi : idx b = idx a
    · unfold write
      rw [hi]
      exact .wrlock (.store (fun _ => rfl) (.unlock h))
    · exact .wrlock_other hi (.store (fun e => absurd (e ▸ rfl) hi) (.unlock_other hi h))

/-! ## Nested calls -/

/-- A thread that's going to wait for a thread that needs its lock, or waits already. -/
def Lost (l : L) (t : Nat) (s : State A X L) : Prop :=
  (∃ b c, s.threads[t]? = some c ∧ Doomed l b c ∧ (b = true → s.writer l = some t)) ∨
  ∃ u k c, t ≠ u ∧ s.writer l = some t ∧ s.threads[t]? = some (.join u k) ∧ s.threads[u]? = some c ∧ Needs l c

theorem lost_step {l : L} {t v : Nat} {s s' : State A X L} (hl : Lost l t s) (h : step v s = some s') : Lost l t s' := by
  rcases hl with ⟨b, c, hc, hd, hb⟩ | ⟨u, k, c, htu, hw, hj, hc, hn⟩
  · have ht := lt_of_get hc
    by_cases hv : v = t
    · subst hv
      rcases step_cases h with ⟨a, k, hc', rfl⟩ | ⟨a, x, k, hc', rfl⟩ | ⟨l', k, hc', hl, rfl⟩ | ⟨l', k, hc', hl, hl', rfl⟩ |
        ⟨l', k, hc', hl, rfl⟩ | ⟨l', k, hc', hl', hl, rfl⟩ | ⟨d, k, hc', rfl⟩ | ⟨w, k, hc', hu', rfl⟩ <;> rw [hc] at hc' <;> cases hc'
      · cases hd with | load p => exact .inl ⟨b, _, set_same ht, p _, hb⟩
      · cases hd with | store p => exact .inl ⟨b, _, set_same ht, p, hb⟩
      · cases hd with | rdlock hne p => exact .inl ⟨b, _, set_same ht, p, hb⟩
      · cases hd with
        | wrlock hne p => exact .inl ⟨b, _, set_same ht, p, fun hb' => by dsimp only; rw [put_other _ _ (Ne.symm hne)]; exact hb hb'⟩
        | own p => exact .inl ⟨true, _, set_same ht, p, fun _ => put_same ..⟩
      · cases hd with
        | unlock hne p => exact .inl ⟨b, _, set_same ht, p, fun hb' => by dsimp only; rw [put_other _ _ (Ne.symm hne)]; exact hb hb'⟩
      · cases hd with | unlock hne p => exact .inl ⟨b, _, set_same ht, p, hb⟩
      · cases hd with
        | nest p q =>
        obtain ⟨k', hk'⟩ := q s.threads.length
        refine .inr ⟨s.threads.length, k', d, by omega, hb rfl, ?_, ?_, p⟩ <;> dsimp only
        · rw [List.getElem?_append_left (by simpa using ht), set_same ht, hk']
        · rw [List.getElem?_append_right (by simp)]; simp
      · cases hd
    · have keep : b = true → s'.writer l = some t := by
        intro hb'
        have hw := hb hb'
        rcases step_cases h with ⟨a, k, hc', rfl⟩ | ⟨a, x, k, hc', rfl⟩ | ⟨l', k, hc', hl, rfl⟩ | ⟨l', k, hc', hl, hl', rfl⟩ |
          ⟨l', k, hc', hl, rfl⟩ | ⟨l', k, hc', hl', hl, rfl⟩ | ⟨d, k, hc', rfl⟩ | ⟨w, k, hc', hu', rfl⟩
        · exact hw
        · exact hw
        · exact hw
        · dsimp only
          rw [put_other _ _ (by rintro rfl; rw [hw] at hl; cases hl)]; exact hw
        · dsimp only
          rw [put_other _ _ (by rintro rfl; rw [hw] at hl; exact hv (Option.some.inj hl).symm)]; exact hw
        · exact hw
        · exact hw
        · exact hw
      refine .inl ⟨b, c, ?_, hd, keep⟩
      have hv' : t ≠ v := fun e => hv e.symm
      rcases step_cases h with ⟨a, k, hc', rfl⟩ | ⟨a, x, k, hc', rfl⟩ | ⟨l', k, hc', hl, rfl⟩ | ⟨l', k, hc', hl, hl', rfl⟩ |
        ⟨l', k, hc', hl, rfl⟩ | ⟨l', k, hc', hl', hl, rfl⟩ | ⟨d, k, hc', rfl⟩ | ⟨w, k, hc', hu', rfl⟩ <;> dsimp only
      case inr.inr.inr.inr.inr.inr.inl =>
        rw [List.getElem?_append_left (by simpa using ht), set_other hv']; exact hc
      all_goals rw [set_other hv']; exact hc
  · obtain ⟨h1, h2, c', h3, h4⟩ := needs_step hw htu hj hc hn h
    exact .inr ⟨u, k, c', htu, h1, h2, h3, h4⟩

/-- C144: a thread that starts another one needing a lock that it has, and waits for it, never ends. -/
theorem C144_doomed {l : L} {ts : List (Code A X L)} {m : A → X} {s : State A X L} {t : Nat} {c : Code A X L} (hc : ts[t]? = some c)
    (hd : Doomed l false c) (h : Reach (init ts m) s) : ∃ d, s.threads[t]? = some d ∧ d ≠ .done := by
  have hl : Lost l t s := by
    induction h with
    | init => exact .inl ⟨false, c, hc, hd, fun h => (by cases h)⟩
    | step v h1 h2 ih => exact lost_step ih h2
  rcases hl with ⟨b, c, hc, hd, hb⟩ | ⟨u, k, c, htu, hw, hj, hc, hn⟩
  · exact ⟨c, hc, by rintro rfl; cases hd⟩
  · exact ⟨_, hj, by simp⟩

section Nested

variable {N E : Type} [DecidableEq N] [DecidableEq E] [Zero X] [One X] [DecidableEq X]
variable {idx : Loc N E → L} {G : Shape N E}

theorem needs_look {l : L} (s : Sight) (lab : E → Loc N E) (rem : E → N) (es : List E) {k : List (X × X) → Code (Loc N E) X L}
    (h : ∀ r, Needs l (k r)) : Needs l (look s lab rem es k) := by
  induction es generalizing k with
  | nil => exact h _
  | cons e es ih =>
    cases s with
    | nothing => exact h _
    | labels => exact .load fun x => ih fun r => h _
    | all => exact .load fun x => .load fun w => ih fun r => h _

theorem needs_inside (K : Kernel (Loc N E) X L) (n : N) (v : Option X) (k : Code (Loc N E) X L) :
    Needs (idx (.marked n)) (inside idx G K n v k) := .wrlock

theorem needs_mutate (o : Ops X) (n : N) (k : Code (Loc N E) X L) : Needs (idx (.marked n)) (mutate idx G o.kernel n k) := by
  unfold mutate Ops.kernel
  cases o.vop with
  | none => exact needs_inside _ n none k
  | some f => exact .load fun v => needs_look _ _ _ _ fun i => needs_look _ _ _ _ fun o => needs_inside _ n _ k

theorem needs_permeate {l : L} (f : X → X → X → X) (v : X) (es : List E) {k : Code (Loc N E) X L} (h : Needs l k) :
    Needs l (permeate G (fun v x w k => k (f v x w)) v es k) := by
  induction es with
  | nil => exact h
  | cons e es ih => exact .load fun x => .load fun w => .store ih

theorem needs_reflect {l : L} (es : List E) {k : Code (Loc N E) X L} (h : Needs l k) : Needs l (reflect es k) := by
  induction es with
  | nil => exact h
  | cons e es ih => exact .load fun x => .store ih

theorem needs_later {l : L} (o : Ops X) (n : N) {k : Code (Loc N E) X L} (h : Needs l k) : Needs l (mutate idx G o.kernel n k) := by
  have h1 : Needs l (unlockForReading idx (.marked n) 1 k) := .store (.unlock h)
  have inner : ∀ v, Needs l (inside idx G o.kernel n v k) := by
    intro v
    refine .wrlock_later ?_
    unfold Ops.kernel
    dsimp only
    cases o.eop with
    | none =>
      cases v with
      | none => exact h1
      | some y => exact .store h1
    | some f =>
      cases v with
      | none => exact .load fun y => needs_permeate _ _ _ (needs_reflect _ h1)
      | some y => exact needs_permeate _ _ _ (needs_reflect _ (.store h1))
  unfold mutate
  cases hv : o.vop with
  | none =>
    rw [show (o.kernel : Kernel (Loc N E) X L).vop = none by unfold Ops.kernel; rw [hv]; rfl]
    exact inner none
  | some f =>
    rw [show (o.kernel : Kernel (Loc N E) X L).vop = some fun v i w k => k (f v i w) by unfold Ops.kernel; rw [hv]; rfl]
    exact .load fun v => needs_look _ _ _ _ fun i => needs_look _ _ _ _ fun w => inner _

/-- A worker needs the locks of the nodes it starts with. -/
theorem needs_worker (o : Ops X) {ss : List N} (ns : List N) {n : N} (hn : n ∈ ss) :
    Needs (idx (.marked n)) (worker idx G o.kernel ss ns : Code (Loc N E) X L) := by
  unfold worker
  induction ss with
  | nil => cases hn
  | cons m ss ih =>
    by_cases h : n = m
    · subst h; exact needs_mutate o n _
    · exact needs_later o m (ih ((List.mem_cons.1 hn).resolve_left h))

/-- C144: if an edge operator given to `cru_mutated` calls `cru_mutated` for another graph, and a node there that's mutated at once shares
its lock with the node being mutated, then the outer call never returns, whatever else is going on. -/
theorem C144_nested (o : Ops X) (G' : Shape N E) {ss : List N} (ns : List N) (y : X) {K : Kernel (Loc N E) X L} {n m : N} (hn : G.dep n ≠ [])
    (hv : K.vop = none) (he : K.eop = some fun _ _ _ => nested (worker idx G' o.kernel ss ns) y) (hm : m ∈ ss)
    (hi : idx (.marked m) = idx (.marked n)) (ss' ns' : List N) {ts : List (Code (Loc N E) X L)} {t : Nat}
    (ht : ts[t]? = some (worker idx G K (n :: ss') ns')) {mem : Loc N E → X} {s : State (Loc N E) X L} (h : Reach (init ts mem) s) :
    ∃ d, s.threads[t]? = some d ∧ d ≠ .done := by
  refine C144_doomed (l := idx (.marked n)) ht ?_ h
  unfold worker startAll mutate
  rw [hv]
  unfold inside
  refine .own ?_
  rw [he]
  dsimp only
  refine .load fun v => ?_
  cases hd : G.dep n with
  | nil => exact absurd hd hn
  | cons e es =>
    refine .load fun x => .load fun w => .nest ?_ fun u => ⟨_, rfl⟩
    rw [← hi]
    exact needs_worker o ns hm

/-- C144: in every execution that goes on as long as it can, it comes to a state in which no thread can take a step although the call hasn't
returned. -/
theorem C144_deadlock (o : Ops X) (G' : Shape N E) {ss : List N} (ns : List N) (y : X) {K : Kernel (Loc N E) X L} {n m : N} (hn : G.dep n ≠ [])
    (hv : K.vop = none) (he : K.eop = some fun _ _ _ => nested (worker idx G' o.kernel ss ns) y) (hm : m ∈ ss)
    (hi : idx (.marked m) = idx (.marked n)) (ss' ns' : List N) {ts : List (Code (Loc N E) X L)} {t : Nat}
    (ht : ts[t]? = some (worker idx G K (n :: ss') ns')) {mem : Loc N E → X} (f : Nat → State (Loc N E) X L) (h0 : f 0 = init ts mem)
    (hf : ∀ i, (∃ t, step t (f i) = some (f (i + 1))) ∨ (∀ t, step t (f i) = none) ∧ f (i + 1) = f i) :
    ∃ i, (∀ t, step t (f i) = none) ∧ ¬ Ended (f i) := by
  have hr : ∀ i, Reach (init ts mem) (f i) := by
    intro i
    induction i with
    | zero => rw [h0]; exact .init
    | succ i ih =>
      rcases hf i with ⟨t, ht⟩ | ⟨-, he⟩
      · exact .step t ih ht
      · rw [he]; exact ih
  obtain ⟨i, hi'⟩ := ends f fun i => (hf i).imp_right And.left
  refine ⟨i, hi', fun hE => ?_⟩
  obtain ⟨d, hd, hne⟩ := C144_nested o G' ns y hn hv he hm hi ss' ns' ht (hr i)
  exact hne (hE d (List.mem_of_getElem? hd))

/-! A graph with an edge from node 0 to node 1 that's mutated by two workers. -/

/-- The graph. -/
def exG : Shape Nat Nat where
  src := fun _ => 0
  dst := fun _ => 1
  pre := fun n => if n = 1 then [0] else []
  dep := fun n => if n = 0 then [0] else []

/-- Another graph, with one node, number 2. -/
def exH : Shape Nat Nat where
  src := id
  dst := id
  pre := fun _ => []
  dep := fun _ => []

/-- A kernel with both operators. -/
def exOps : Ops Nat where
  ordered := true
  before := .all
  after := .all
  vop := some fun v i o => v + i.length + o.length
  eop := some fun v x w => v + x + w

/-- The lock of a place in a pool of two locks. -/
def exIdx : Loc Nat Nat → Nat
  | .marked n => n % 2
  | _ => 0

/-- The workers meet the hypotheses of `C144_live`, and go through critical sections and waiting. -/
example : ∀ c ∈ [worker exIdx exG (exOps.kernel : Kernel _ Nat Nat) [0] [], worker exIdx exG exOps.kernel [] [1, 1]], Polite [] none c := by
  intro c hc
  rcases List.mem_cons.1 hc with rfl | hc
  · exact polite_worker (modest_kernel _) _ _
  · rw [List.mem_singleton.1 hc]
    exact polite_worker (modest_kernel _) _ _

/-- Two threads meet the hypotheses of `C144_atomic`: one reads the mark of node 0, and the other writes to that of node 2, which has the same
lock, and to it. -/
example : ∀ c ∈ [(read exIdx (.marked 0) fun _ => .done : Code (Loc Nat Nat) Nat Nat),
    write exIdx (.marked 2) 1 (write exIdx (.marked 0) 1 .done)], Guarded (.marked 0) (exIdx (.marked 0)) false false c := by
  intro c hc
  rcases List.mem_cons.1 hc with rfl | hc
  · exact (C144_guarded exIdx _ _).1 _ fun _ => .done
  · rw [List.mem_singleton.1 hc]
    exact (C144_guarded exIdx _ _).2 _ _ ((C144_guarded exIdx _ _).2 _ _ .done)

/-- A kernel with just a vertex operator. -/
def exInner : Ops Nat where
  ordered := true
  before := .nothing
  after := .nothing
  vop := some fun v _ _ => v + 1
  eop := none

/-- A kernel with an edge operator that mutates the other graph and returns 5. -/
def exOuter : Kernel (Loc Nat Nat) Nat Nat where
  ordered := true
  before := .nothing
  after := .nothing
  vop := none
  eop := some fun _ _ _ => nested (worker exIdx exH exInner.kernel [2] []) 5

/-- `C144_nested` applies to it. -/
example {s : State (Loc Nat Nat) Nat Nat} (h : Reach (init [worker exIdx exG exOuter [0] [], .done] fun _ => 0) s) :
    ∃ d, s.threads[0]? = some d ∧ d ≠ .done :=
  C144_nested (n := 0) (m := 2) exInner exH [] 5 (by decide) rfl rfl (List.mem_singleton.2 rfl) rfl [] [] rfl h

end Nested

end Cru.Pool
