import Verif.Proofs.PoolMutate

/-!
# The invariant of mutation in terms of memory
-/

namespace Cru.Pool

variable {N E X L : Type} [DecidableEq N] [DecidableEq E] [DecidableEq L] [Zero X] [One X] [DecidableEq X]

namespace Phase

/-- The nodes not started yet. -/
def rest : Phase N E X → List N
  | idle U | claim _ _ U | look _ _ _ U | seen _ _ _ U | ready _ U | crit _ _ _ _ U | close _ U => U

/-- The node that's been examined or mutated. -/
def cur : Phase N E X → Option N
  | idle _ | close _ _ => none
  | claim n _ _ | look n _ _ _ | seen n _ _ _ | ready n _ | crit n _ _ _ _ => some n

/-- Nodes known to be finished. -/
def known : Phase N E X → List N
  | claim _ S _ | look _ S _ _ | seen _ S _ _ => S
  | _ => []

/-- The node whose prerequisites are all known to be finished. -/
def prep : Phase N E X → Option N
  | ready n _ | crit n _ _ _ _ => some n
  | _ => none

/-- The node whose mark is locked for reading. -/
def reads : Phase N E X → Option N
  | look _ _ p _ | seen _ _ p _ => some p
  | _ => none

/-- The node whose mark is locked for writing. -/
def writes : Phase N E X → Option N
  | crit n _ _ _ _ | close n _ => some n
  | _ => none

/-- The node whose vertex and labels may have been changed although it isn't marked. -/
def inner : Phase N E X → Option N
  | crit n _ _ _ _ => some n
  | _ => none

end Phase

variable (o : Ops X) (G : Shape N E) (m₀ : Loc N E → X) (idx : Loc N E → L) (own : N → Nat)

/-- How the phase of thread `t` relates to the state. -/
structure Rel (t : Nat) (γ : Phase N E X) (s : State (Loc N E) X L) : Prop where
  rest : ∀ n ∈ γ.rest, own n = t ∧ s.mem (.marked n) = 0
  once : γ.rest.Nodup
  cur : ∀ n, γ.cur = some n → own n = t ∧ s.mem (.marked n) = 0 ∧ n ∉ γ.rest
  known : ∀ p ∈ γ.known, s.mem (.marked p) ≠ 0
  prep : ∀ n, γ.prep = some n → o.Waits → ∀ e ∈ G.pre n, s.mem (.marked (G.src e)) ≠ 0
  reads : ∀ p, γ.reads = some p → t ∈ s.readers (idx (.marked p))
  writes : ∀ n, γ.writes = some n → s.writer (idx (.marked n)) = some t
  holds : ∀ n v a b U, γ = .crit n v a b U → s.mem (.vertex n) = v ∧ ∀ e ∈ G.dep n, s.mem (.near e) = a e ∧ s.mem (.far e) = b e

/-- The invariant, apart from the code of threads. -/
structure Base (γ : Nat → Phase N E X) (s : State (Loc N E) X L) : Prop where
  out : ∀ t, s.threads.length ≤ t → γ t = .idle []
  rel : ∀ t, Rel o G idx own t (γ t) s
  lock : ∀ l t, s.writer l = some t → s.readers l = []
  new : ∀ n, s.mem (.marked n) ≠ 0 → Final o G m₀ n (s.mem (.vertex n)) ∧
    ∀ e ∈ G.dep n, s.mem (.near e) = label o G m₀ e (s.mem (.vertex n)) ∧ s.mem (.far e) = label o G m₀ e (s.mem (.vertex n))
  order : o.Waits → ∀ n, s.mem (.marked n) ≠ 0 → ∀ e ∈ G.pre n, s.mem (.marked (G.src e)) ≠ 0
  old : ∀ n, s.mem (.marked n) = 0 → (∀ t, (γ t).inner ≠ some n) → s.mem (.vertex n) = m₀ (.vertex n) ∧
    ∀ e ∈ G.dep n, s.mem (.near e) = m₀ (.near e) ∧ s.mem (.far e) = m₀ (.near e)
  vops : o.vop = none → ∀ n, s.mem (.vertex n) = m₀ (.vertex n)
  eops : o.eop = none → ∀ e, s.mem (.near e) = m₀ (.near e) ∧ s.mem (.far e) = m₀ (.near e)

variable {o G m₀ idx own} {γ : Nat → Phase N E X} {s : State (Loc N E) X L} {t : Nat}

theorem rel_ghost {δ δ' : Phase N E X} (h : Rel o G idx own t δ s) (hg : Ghost o G δ δ') : Rel o G idx own t δ' s ∧ δ'.inner = δ.inner := by
  induction hg with
  | refl => exact ⟨h, rfl⟩
  | next _ ih =>
    refine ih ⟨fun n hn => h.rest n (List.mem_cons_of_mem _ hn), (List.nodup_cons.1 h.once).2, fun n hn => ?_, fun p hp => (by cases hp),
      fun n hn => (by cases hn), fun n hn => (by cases hn), fun n hn => (by cases hn), fun _ _ _ _ _ hn => (by cases hn)⟩
    cases hn
    obtain ⟨h1, h2⟩ := h.rest _ List.mem_cons_self
    exact ⟨h1, h2, (List.nodup_cons.1 h.once).1⟩
  | quit _ ih =>
    exact ih ⟨h.rest, h.once, fun n hn => (by cases hn), fun p hp => (by cases hp),
      fun n hn => (by cases hn), fun n hn => (by cases hn), fun n hn => (by cases hn), fun _ _ _ _ _ hn => (by cases hn)⟩
  | go hw _ ih =>
    refine ih ⟨h.rest, h.once, fun n hn => (by cases hn; exact h.cur _ rfl), fun p hp => (by cases hp),
      fun n hn hw' e he => ?_, fun n hn => (by cases hn), fun n hn => (by cases hn), fun _ _ _ _ _ hn => (by cases hn)⟩
    cases hn
    exact h.known _ (hw hw' e he)

/-- Only the phase of one thread changes. -/
theorem base_phase (h : Base o G m₀ idx own γ s) (ht : t < s.threads.length) {δ : Phase N E X} (hr : Rel o G idx own t δ s)
    (hi : δ.inner = (γ t).inner) : Base o G m₀ idx own (put γ t δ) s := by
  refine ⟨fun u hu => ?_, fun u => ?_, h.lock, h.new, h.order, fun n hn hc => h.old n hn fun u => ?_, h.vops, h.eops⟩
  · rw [put_other _ _ (by omega)]; exact h.out u hu
  · by_cases hu : u = t
    · subst hu; rw [put_same]; exact hr
    · rw [put_other _ _ hu]; exact h.rel u
  · by_cases hu : u = t
    · subst hu; rw [← hi]; simpa [put_same] using hc u
    · have := hc u; rwa [put_other _ _ hu] at this

theorem base_ghost (h : Base o G m₀ idx own γ s) (ht : t < s.threads.length) {δ : Phase N E X} (hg : Ghost o G (γ t) δ) :
    Base o G m₀ idx own (put γ t δ) s := by
  obtain ⟨h1, h2⟩ := rel_ghost (h.rel t) hg
  exact base_phase h ht h1 h2

/-- Only the code changes. -/
theorem base_threads (h : Base o G m₀ idx own γ s) {ts : List (Code (Loc N E) X L)} (ht : ts.length = s.threads.length) :
    Base o G m₀ idx own γ { s with threads := ts } :=
  ⟨fun u hu => h.out u (by dsimp only at hu; omega), fun u => ⟨(h.rel u).rest, (h.rel u).once, (h.rel u).cur, (h.rel u).known, (h.rel u).prep,
    (h.rel u).reads, (h.rel u).writes, (h.rel u).holds⟩, h.lock, h.new, h.order, h.old, h.vops, h.eops⟩

theorem rel_locks {δ : Phase N E X} {r : L → List Nat} {w : L → Option Nat} (h : Rel o G idx own t δ s)
    (hr : ∀ p, δ.reads = some p → t ∈ r (idx (.marked p))) (hw : ∀ p, δ.writes = some p → w (idx (.marked p)) = some t) :
    Rel o G idx own t δ { s with readers := r, writer := w } :=
  ⟨h.rest, h.once, h.cur, h.known, h.prep, hr, hw, h.holds⟩

/-- Only locks and the phase of one thread change. -/
theorem base_locks (h : Base o G m₀ idx own γ s) (ht : t < s.threads.length) {δ : Phase N E X} {r : L → List Nat} {w : L → Option Nat}
    (hr : Rel o G idx own t δ { s with readers := r, writer := w }) (hl : ∀ l u, w l = some u → r l = [])
    (h1 : ∀ u p, u ≠ t → (γ u).reads = some p → u ∈ r (idx (.marked p)))
    (h2 : ∀ u p, u ≠ t → (γ u).writes = some p → w (idx (.marked p)) = some u)
    (hi : ∀ n, (γ t).inner = some n → δ.inner = some n) : Base o G m₀ idx own (put γ t δ) { s with readers := r, writer := w } := by
  refine ⟨fun u hu => ?_, fun u => ?_, hl, h.new, h.order, fun n hn hc => h.old n hn fun u => ?_, h.vops, h.eops⟩
  · rw [put_other _ _ (by dsimp only at hu; omega)]; exact h.out u hu
  · by_cases hu : u = t
    · subst hu; rw [put_same]; exact hr
    · rw [put_other _ _ hu]; exact rel_locks (h.rel u) (fun p => h1 u p hu) fun p => h2 u p hu
  · by_cases hu : u = t
    · subst hu
      have := hc u
      rw [put_same] at this
      exact fun h' => this (hi n h')
    · have := hc u; rwa [put_other _ _ hu] at this

theorem put_put {B Y : Type} [DecidableEq B] (m : B → Y) (b : B) (x y : Y) : put (put m b x) b y = put m b y := by
  funext c
  unfold put
  split_ifs <;> rfl

/-! ## Loads -/

theorem waits_of (hs : o.Sound) (hv : o.vop.isSome = true) (h : o.eop.isSome = true ∨ o.before = .all ∨ o.after = .all) : o.Waits :=
  ⟨(hs hv h).1, hv, (hs hv h).2⟩

/-- No one else is in the critical section of a thread's node. -/
theorem sole (h : Base o G m₀ idx own γ s) {n : N} (hc : (γ t).cur = some n) (hi : (γ t).inner = none) (u : Nat) : (γ u).inner ≠ some n := by
  intro hu
  have h1 := (h.rel t).cur n hc
  have h2 : (γ u).cur = some n := by
    revert hu
    cases γ u <;> simp [Phase.inner, Phase.cur]
  have h3 := (h.rel u).cur n h2
  have : u = t := h3.1.symm.trans h1.1
  subst this
  rw [hi] at hu
  cases hu

/-- Vertices that depend on a node being mutated have their original values. -/
theorem dependant (hG : G.Proper) (h : Base o G m₀ idx own γ s) (hw : o.Waits) {n : N} (hc : (γ t).cur = some n) {e : E} (he : e ∈ G.dep n) :
    s.mem (.marked (G.dst e)) = 0 ∧ (∀ u, (γ u).prep ≠ some (G.dst e)) ∧ s.mem (.vertex (G.dst e)) = m₀ (.vertex (G.dst e)) := by
  have h1 := (h.rel t).cur n hc
  have hsrc := (hG.dep n e).1 he
  have hpre := (hG.pre (G.dst e) e).2 rfl
  have hm : s.mem (.marked (G.dst e)) = 0 := by
    by_contra hm
    have := h.order hw _ hm e hpre
    rw [hsrc] at this
    exact this h1.2.1
  have hp : ∀ u, (γ u).prep ≠ some (G.dst e) := by
    intro u hu
    have := (h.rel u).prep _ hu hw e hpre
    rw [hsrc] at this
    exact this h1.2.1
  refine ⟨hm, hp, (h.old _ hm fun u hu => hp u ?_).1⟩
  revert hu
  cases γ u <;> simp [Phase.inner, Phase.prep]

/-- A thread may load what's there. -/
theorem safe_load (hG : G.Proper) (hs : o.Sound) (h : Base o G m₀ idx own γ s) (ht : t < s.threads.length) {a : Loc N E}
    {k : X → Code (Loc N E) X L} (hc : Safe o G m₀ idx own t (γ t) (.load a k)) :
    ∃ δ, Safe o G m₀ idx own t δ (k (s.mem a)) ∧ Base o G m₀ idx own (put γ t δ) s := by
  generalize hδ : γ t = δ at hc
  have key : ∀ {δ'}, Ghost o G δ δ' → Base o G m₀ idx own (put γ t δ') s ∧ Rel o G idx own t δ' s := fun {δ'} hg => by
    have := base_ghost h ht (hδ ▸ hg)
    refine ⟨this, ?_⟩
    have h' := this.rel t
    rwa [put_same] at h'
  have hrel := hδ ▸ h.rel t
  cases hc with
  | @mark _ n U _ hg ho hU h1 h2 =>
    obtain ⟨b, r⟩ := key hg
    by_cases hm : s.mem (.marked n) = 0
    · rw [hm]
      refine ⟨_, h2, ?_⟩
      have := base_phase (δ := .claim n [] U) b ht ⟨r.rest, r.once, fun n' hn => ?_, fun p hp => (by cases hp),
        fun n hn => (by cases hn), fun n hn => (by cases hn), fun n hn => (by cases hn), fun _ _ _ _ _ hn => (by cases hn)⟩ (by rw [put_same]; rfl)
      · rwa [put_put] at this
      · cases hn
        exact ⟨ho, hm, hU⟩
    · exact ⟨_, h1 _ hm, b⟩
  | @look n S p U _ h1 h2 =>
    by_cases hm : s.mem (.marked p) = 0
    · rw [hm]
      exact ⟨_, h2, base_phase h ht ⟨hrel.rest, hrel.once, hrel.cur, hrel.known, hrel.prep, hrel.reads, hrel.writes,
        fun _ _ _ _ _ hn => (by cases hn)⟩ (by rw [hδ]; rfl)⟩
    · refine ⟨_, h1 _ hm, base_phase h ht ⟨hrel.rest, hrel.once, hrel.cur, fun q hq => ?_, hrel.prep, hrel.reads, hrel.writes,
        fun _ _ _ _ _ hn => (by cases hn)⟩ (by rw [hδ]; rfl)⟩
      rcases List.mem_cons.1 hq with rfl | hq
      · exact hm
      · exact hrel.known q hq
  | @vertex _ n U _ hg h1 =>
    obtain ⟨b, r⟩ := key hg
    rw [(b.old n (r.cur n rfl).2.1 (sole (t := t) b (by rw [put_same]; rfl) (by rw [put_same]; rfl))).1]
    exact ⟨_, h1, b⟩
  | @far _ n U e _ hg hv hb he h1 =>
    obtain ⟨b, r⟩ := key hg
    refine ⟨_, h1 _ ?_, b⟩
    cases ho : o.eop with
    | none => exact .inl ⟨rfl, (h.eops ho e).2⟩
    | some g =>
      have hw := waits_of hs hv (.inl (by rw [ho]; rfl))
      obtain ⟨h2, h3⟩ := h.new _ (r.prep n rfl hw e he)
      exact .inr ⟨_, h2, (h3 e ((hG.dep _ e).2 rfl)).2⟩
  | @before _ n U e _ hg hv hb he h1 =>
    obtain ⟨b, r⟩ := key hg
    exact ⟨_, h1 _ (h.new _ (r.prep n rfl (waits_of hs hv (.inr (.inl hb))) e he)).1, b⟩
  | @near _ n U e _ hg he h1 =>
    obtain ⟨b, r⟩ := key hg
    rw [((b.old n (r.cur n rfl).2.1 (sole (t := t) b (by rw [put_same]; rfl) (by rw [put_same]; rfl))).2 e he).1]
    exact ⟨_, h1, b⟩
  | @after _ n U e _ hg hv ha he h1 =>
    obtain ⟨b, r⟩ := key hg
    rw [(dependant (t := t) hG b (waits_of hs hv (.inr (.inr ha))) (by rw [put_same]; rfl) he).2.2]
    exact ⟨_, h1, b⟩
  | @cVertex n v a b U _ h1 =>
    rw [(hrel.holds n v a b U rfl).1]
    exact ⟨_, h1, (key .refl).1⟩
  | @cNear n v a b U e _ he h1 =>
    rw [((hrel.holds n v a b U rfl).2 e he).1]
    exact ⟨_, h1, (key .refl).1⟩
  | @cAfter n v a b U e _ ho he h1 =>
    refine ⟨_, ?_, (key .refl).1⟩
    cases hv : o.vop with
    | none => rw [h.vops hv]; exact h1
    | some f =>
      rw [(dependant (t := t) hG h (waits_of hs (by rw [hv]; rfl) (.inl ho)) (by rw [hδ]; rfl) he).2.2]
      exact h1

/-! ## Stores -/

theorem base_store (hG : G.Proper) (h : Base o G m₀ idx own γ s) (ht : t < s.threads.length) {n : N} {v v' x : X} {a a' b b' : E → X} {U : List N}
    (hδ : γ t = .crit n v a b U) {l : Loc N E}
    (hl : (l = .vertex n ∧ o.vop.isSome = true) ∨ ∃ e ∈ G.dep n, (l = .near e ∨ l = .far e) ∧ o.eop.isSome = true)
    (hh : put s.mem l x (.vertex n) = v' ∧ ∀ e ∈ G.dep n, put s.mem l x (.near e) = a' e ∧ put s.mem l x (.far e) = b' e) :
    Base o G m₀ idx own (put γ t (.crit n v' a' b' U)) { s with mem := put s.mem l x } := by
  have hrel := hδ ▸ h.rel t
  have hcur := hrel.cur n rfl
  -- what isn't changed
  have marked : ∀ p, put s.mem l x (.marked p) = s.mem (.marked p) := fun p => put_other _ _ (by
    rcases hl with ⟨rfl, -⟩ | ⟨e, -, rfl | rfl, -⟩ <;> simp)
  have vertex : ∀ p, p ≠ n → put s.mem l x (.vertex p) = s.mem (.vertex p) := fun p hp => put_other _ _ (by
    rcases hl with ⟨rfl, -⟩ | ⟨e, -, rfl | rfl, -⟩ <;> simp [hp])
  have edge : ∀ p, p ≠ n → ∀ e ∈ G.dep p, put s.mem l x (.near e) = s.mem (.near e) ∧ put s.mem l x (.far e) = s.mem (.far e) := by
    intro p hp e he
    have hne : ∀ e' ∈ G.dep n, e ≠ e' := by
      rintro e' he' rfl
      exact hp (((hG.dep p e).1 he).symm.trans ((hG.dep n e).1 he'))
    constructor <;> refine put_other _ _ ?_ <;> rcases hl with ⟨rfl, -⟩ | ⟨e', he', rfl | rfl, -⟩ <;> simp
    · exact hne _ he'
    · exact hne _ he'
  refine ⟨fun u hu => ?_, fun u => ?_, h.lock, fun p hp => ?_, fun hw p hp e he => ?_, fun p hp hc => ?_, fun hv p => ?_, fun he e => ?_⟩
  · dsimp only at hu
    rw [put_other _ _ (by omega)]; exact h.out u hu
  · by_cases hu : u = t
    · subst hu
      rw [put_same]
      refine ⟨fun p hp => ?_, hrel.once, fun p hp => ?_, fun p hp => (by cases hp), fun p hp hw e he => ?_, hrel.reads, hrel.writes,
        fun _ _ _ _ _ hc => ?_⟩
      · dsimp only; rw [marked]; exact hrel.rest p hp
      · dsimp only; rw [marked]; exact hrel.cur p hp
      · dsimp only; rw [marked]; exact hrel.prep p hp hw e he
      · cases hc
        exact hh
    · rw [put_other _ _ hu]
      have r := h.rel u
      refine ⟨fun p hp => ?_, r.once, fun p hp => ?_, fun p hp => ?_, fun p hp hw e he => ?_, r.reads, r.writes, fun p v'' a'' b'' U' hc => ?_⟩
      · dsimp only; rw [marked]; exact r.rest p hp
      · dsimp only; rw [marked]; exact r.cur p hp
      · dsimp only; rw [marked]; exact r.known p hp
      · dsimp only; rw [marked]; exact r.prep p hp hw e he
      · have hp : p ≠ n := by
          rintro rfl
          exact hu ((r.cur p (by rw [hc]; rfl)).1.symm.trans hcur.1)
        dsimp only
        rw [vertex p hp]
        refine ⟨(r.holds p v'' a'' b'' U' hc).1, fun e he => ?_⟩
        rw [(edge p hp e he).1, (edge p hp e he).2]
        exact (r.holds p v'' a'' b'' U' hc).2 e he
  · dsimp only at hp ⊢
    rw [marked] at hp
    have hpn : p ≠ n := by rintro rfl; exact hp hcur.2.1
    rw [vertex p hpn]
    refine ⟨(h.new p hp).1, fun e he => ?_⟩
    rw [(edge p hpn e he).1, (edge p hpn e he).2]
    exact (h.new p hp).2 e he
  · dsimp only at hp ⊢
    rw [marked] at hp ⊢
    exact h.order hw p hp e he
  · dsimp only at hp ⊢
    rw [marked] at hp
    have hpn : p ≠ n := by
      rintro rfl
      have := hc t
      rw [put_same] at this
      exact this rfl
    have := h.old p hp fun u => by
      by_cases hu : u = t
      · subst hu
        rw [hδ]
        exact fun h' => hpn (by cases h'; rfl)
      · have := hc u
        rwa [put_other _ _ hu] at this
    rw [vertex p hpn]
    refine ⟨this.1, fun e he => ?_⟩
    rw [(edge p hpn e he).1, (edge p hpn e he).2]
    exact this.2 e he
  · dsimp only
    rw [put_other _ _ ?_]
    · exact h.vops hv p
    · rcases hl with ⟨-, hl⟩ | ⟨e', he', rfl | rfl, -⟩
      · rw [hv] at hl; cases hl
      · simp
      · simp
  · dsimp only
    have hl' : l = .vertex n := by
      rcases hl with ⟨rfl, -⟩ | ⟨_, _, _, hl⟩
      · rfl
      · rw [he] at hl; cases hl
    subst hl'
    rw [put_other _ _ (by simp), put_other _ _ (by simp)]
    exact h.eops he e

theorem base_mark (h : Base o G m₀ idx own γ s) (ht : t < s.threads.length) {n : N} {v x : X} {a b : E → X} {U : List N}
    (hδ : γ t = .crit n v a b U) (hx : x ≠ 0) (hf : Final o G m₀ n v) (hab : ∀ e ∈ G.dep n, a e = label o G m₀ e v ∧ b e = label o G m₀ e v) :
    Base o G m₀ idx own (put γ t (.close n U)) { s with mem := put s.mem (.marked n) x } := by
  have hrel := hδ ▸ h.rel t
  have hcur := hrel.cur n rfl
  have mono : ∀ p, s.mem (.marked p) ≠ 0 → put s.mem (.marked n) x (.marked p) ≠ 0 := by
    intro p hp
    by_cases hpn : p = n
    · subst hpn; rw [put_same]; exact hx
    · rw [put_other _ _ (by simp [hpn])]; exact hp
  have other : ∀ p, p ≠ n → put s.mem (.marked n) x (.marked p) = s.mem (.marked p) := fun p hp => put_other _ _ (by simp [hp])
  have vertex : ∀ p, put s.mem (.marked n) x (.vertex p) = s.mem (.vertex p) := fun p => put_other _ _ (by simp)
  have near : ∀ p, put s.mem (.marked n) x (.near p) = s.mem (.near p) := fun p => put_other _ _ (by simp)
  have far : ∀ p, put s.mem (.marked n) x (.far p) = s.mem (.far p) := fun p => put_other _ _ (by simp)
  refine ⟨fun u hu => ?_, fun u => ?_, h.lock, fun p hp => ?_, fun hw p hp e he => ?_, fun p hp hc => ?_, fun hv p => ?_, fun he e => ?_⟩
  · dsimp only at hu
    rw [put_other _ _ (by omega)]; exact h.out u hu
  · by_cases hu : u = t
    · subst hu
      rw [put_same]
      refine ⟨fun p hp => ?_, hrel.once, fun p hp => (by cases hp), fun p hp => (by cases hp), fun p hp => (by cases hp), fun p hp => (by cases hp),
        hrel.writes, fun _ _ _ _ _ hc => (by cases hc)⟩
      dsimp only
      rw [other p (by rintro rfl; exact hcur.2.2 hp)]
      exact hrel.rest p hp
    · rw [put_other _ _ hu]
      have r := h.rel u
      have mine : ∀ p, own p = u → p ≠ n := by
        rintro p hp rfl
        exact hu (hp.symm.trans hcur.1)
      refine ⟨fun p hp => ?_, r.once, fun p hp => ?_, fun p hp => mono p (r.known p hp), fun p hp hw e he => mono _ (r.prep p hp hw e he), r.reads,
        r.writes, fun p v'' a'' b'' U' hc => ?_⟩
      · have := r.rest p hp
        dsimp only
        rw [other p (mine p this.1)]
        exact this
      · have := r.cur p hp
        dsimp only
        rw [other p (mine p this.1)]
        exact this
      · dsimp only
        rw [vertex]
        refine ⟨(r.holds p v'' a'' b'' U' hc).1, fun e he => ?_⟩
        rw [near, far]
        exact (r.holds p v'' a'' b'' U' hc).2 e he
  · dsimp only at hp ⊢
    rw [vertex]
    by_cases hpn : p = n
    · subst hpn
      obtain ⟨h1, h2⟩ := hrel.holds p v a b U rfl
      rw [h1]
      refine ⟨hf, fun e he => ?_⟩
      rw [near, far, (h2 e he).1, (h2 e he).2]
      exact hab e he
    · rw [other p hpn] at hp
      refine ⟨(h.new p hp).1, fun e he => ?_⟩
      rw [near, far]
      exact (h.new p hp).2 e he
  · refine mono _ ?_
    by_cases hpn : p = n
    · subst hpn
      exact hrel.prep p rfl hw e he
    · dsimp only at hp
      rw [other p hpn] at hp
      exact h.order hw p hp e he
  · dsimp only at hp ⊢
    have hpn : p ≠ n := by
      rintro rfl
      rw [put_same] at hp
      exact hx hp
    rw [other p hpn] at hp
    have := h.old p hp fun u => by
      by_cases hu : u = t
      · subst hu
        rw [hδ]
        exact fun h' => hpn (by cases h'; rfl)
      · have := hc u
        rwa [put_other _ _ hu] at this
    rw [vertex]
    refine ⟨this.1, fun e he => ?_⟩
    rw [near, far]
    exact this.2 e he
  · dsimp only; rw [vertex]; exact h.vops hv p
  · dsimp only; rw [near, far]; exact h.eops he e

theorem safe_store (hG : G.Proper) (h : Base o G m₀ idx own γ s) (ht : t < s.threads.length) {l : Loc N E} {x : X}
    {k : Code (Loc N E) X L} (hc : Safe o G m₀ idx own t (γ t) (.store l x k)) :
    ∃ δ, Safe o G m₀ idx own t δ k ∧ Base o G m₀ idx own (put γ t δ) { s with mem := put s.mem l x } := by
  generalize hδ : γ t = δ at hc
  have hrel := hδ ▸ h.rel t
  cases hc with
  | @sVertex n v a b U _ _ hv h1 =>
    refine ⟨_, h1, base_store hG h ht hδ (.inl ⟨rfl, hv⟩) ⟨put_same _ _ _, fun e he => ?_⟩⟩
    rw [put_other _ _ (by simp), put_other _ _ (by simp)]
    exact (hrel.holds n v a b U rfl).2 e he
  | @sNear n v a b U e _ _ ho he h1 =>
    refine ⟨_, h1, base_store hG h ht hδ (.inr ⟨e, he, .inl rfl, ho⟩) ⟨?_, fun e' he' => ⟨?_, ?_⟩⟩⟩
    · rw [put_other _ _ (by simp)]; exact (hrel.holds n v a b U rfl).1
    · by_cases hee : e' = e
      · subst hee; rw [put_same, put_same]
      · rw [put_other _ _ hee, put_other _ _ (by simp [hee])]; exact ((hrel.holds n v a b U rfl).2 e' he').1
    · rw [put_other _ _ (by simp)]; exact ((hrel.holds n v a b U rfl).2 e' he').2
  | @sFar n v a b U e _ _ ho he h1 =>
    refine ⟨_, h1, base_store hG h ht hδ (.inr ⟨e, he, .inr rfl, ho⟩) ⟨?_, fun e' he' => ⟨?_, ?_⟩⟩⟩
    · rw [put_other _ _ (by simp)]; exact (hrel.holds n v a b U rfl).1
    · rw [put_other _ _ (by simp)]; exact ((hrel.holds n v a b U rfl).2 e' he').1
    · by_cases hee : e' = e
      · subst hee; rw [put_same, put_same]
      · rw [put_other _ _ hee, put_other _ _ (by simp [hee])]; exact ((hrel.holds n v a b U rfl).2 e' he').2
  | sMark hx hf hab h1 => exact ⟨_, h1, base_mark h ht hδ hx hf hab⟩

/-! ## Locks -/

theorem safe_rdlock (h : Base o G m₀ idx own γ s) (ht : t < s.threads.length) {l : L} {k : Code (Loc N E) X L} (hw : s.writer l = none)
    (hc : Safe o G m₀ idx own t (γ t) (.rdlock l k)) :
    ∃ δ, Safe o G m₀ idx own t δ k ∧ Base o G m₀ idx own (put γ t δ) { s with readers := put s.readers l (t :: s.readers l) } := by
  generalize hδ : γ t = δ at hc
  cases hc with
  | @rdlock _ n S p U _ hg h1 =>
  have b := base_ghost h ht (hδ ▸ hg)
  have r := b.rel t
  rw [put_same] at r
  refine ⟨_, h1, ?_⟩
  have grow : ∀ u q, u ∈ s.readers q → u ∈ put s.readers (idx (.marked p)) (t :: s.readers (idx (.marked p))) q := by
    intro u q hu
    by_cases hq : q = idx (.marked p)
    · subst hq; rw [put_same]; exact List.mem_cons_of_mem _ hu
    · rw [put_other _ _ hq]; exact hu
  have := base_locks (δ := .look n S p U) (r := put s.readers (idx (.marked p)) (t :: s.readers (idx (.marked p)))) (w := s.writer) b ht
    ⟨r.rest, r.once, r.cur, r.known, fun _ hn => (by cases hn), fun q hq => ?_, fun _ hn => (by cases hn), fun _ _ _ _ _ hn => (by cases hn)⟩
    (fun q u hq => ?_) (fun u q hu hq => ?_) (fun u q hu hq => (b.rel u).writes q hq) (fun n hn => ?_)
  · rwa [put_put] at this
  · cases hq
    dsimp only
    rw [put_same]
    exact List.mem_cons_self
  · rw [put_other _ _ (by rintro rfl; rw [hw] at hq; cases hq)]
    exact h.lock q u hq
  · exact grow _ _ ((b.rel u).reads q hq)
  · rw [put_same] at hn; cases hn

theorem safe_wrlock (h : Base o G m₀ idx own γ s) (ht : t < s.threads.length) {l : L} {k : Code (Loc N E) X L} (hw : s.writer l = none)
    (hr : s.readers l = []) (hc : Safe o G m₀ idx own t (γ t) (.wrlock l k)) :
    ∃ δ, Safe o G m₀ idx own t δ k ∧ Base o G m₀ idx own (put γ t δ) { s with writer := put s.writer l (some t) } := by
  generalize hδ : γ t = δ at hc
  cases hc with
  | @wrlock _ n U _ hg h1 =>
  have b := base_ghost h ht (hδ ▸ hg)
  have r := b.rel t
  rw [put_same] at r
  have old := b.old n (r.cur n rfl).2.1 (sole (t := t) b (by rw [put_same]; rfl) (by rw [put_same]; rfl))
  refine ⟨_, h1, ?_⟩
  have := base_locks (δ := .crit n (m₀ (.vertex n)) (fun e => m₀ (.near e)) (fun e => m₀ (.near e)) U) (r := s.readers)
    (w := put s.writer (idx (.marked n)) (some t)) b ht
    ⟨r.rest, r.once, r.cur, fun _ hn => (by cases hn), r.prep, fun _ hn => (by cases hn), fun q hq => ?_, fun _ _ _ _ _ hn => ?_⟩
    (fun q u hq => ?_) (fun u q hu hq => (b.rel u).reads q hq) (fun u q hu hq => ?_) (fun n hn => ?_)
  · rwa [put_put] at this
  · cases hq
    dsimp only
    rw [put_same]
  · cases hn
    exact old
  · by_cases hl : q = idx (.marked n)
    · rw [hl]; exact hr
    · rw [put_other _ _ hl] at hq; exact h.lock q u hq
  · have h2 := (b.rel u).writes q hq
    by_cases hl : idx (.marked q) = idx (.marked n)
    · rw [hl, hw] at h2; cases h2
    · rw [put_other _ _ hl]; exact h2
  · rw [put_same] at hn; cases hn

theorem safe_unlock (h : Base o G m₀ idx own γ s) (ht : t < s.threads.length) {l : L} {k : Code (Loc N E) X L}
    (hc : Safe o G m₀ idx own t (γ t) (.unlock l k)) :
    (s.writer l = some t → ∃ δ, Safe o G m₀ idx own t δ k ∧ Base o G m₀ idx own (put γ t δ) { s with writer := put s.writer l none }) ∧
    (s.writer l ≠ some t → ∃ δ, Safe o G m₀ idx own t δ k ∧
      Base o G m₀ idx own (put γ t δ) { s with readers := put s.readers l ((s.readers l).erase t) }) := by
  generalize hδ : γ t = δ at hc
  have r := hδ ▸ h.rel t
  cases hc with
  | @seen n S p U _ h1 =>
    have hin := r.reads p rfl
    refine ⟨fun hw => ?_, fun _ => ⟨_, h1, ?_⟩⟩
    · rw [h.lock _ _ hw] at hin; cases hin
    · refine base_locks (δ := .claim n S U) (r := put s.readers (idx (.marked p)) ((s.readers (idx (.marked p))).erase t)) (w := s.writer) h ht
        ⟨r.rest, r.once, r.cur, r.known, fun _ hn => (by cases hn), fun _ hn => (by cases hn), fun _ hn => (by cases hn),
          fun _ _ _ _ _ hn => (by cases hn)⟩
        (fun q u hq => ?_) (fun u q hu hq => ?_) (fun u q hu hq => (h.rel u).writes q hq) (fun n hn => by rw [hδ] at hn; cases hn)
      · rw [put_other _ _ (by rintro rfl; rw [h.lock _ _ hq] at hin; cases hin)]
        exact h.lock q u hq
      · have h2 := (h.rel u).reads q hq
        by_cases hl : idx (.marked q) = idx (.marked p)
        · rw [hl, put_same, List.mem_erase_of_ne hu, ← hl]; exact h2
        · rw [put_other _ _ hl]; exact h2
  | @close n U _ h1 =>
    have hin := r.writes n rfl
    refine ⟨fun _ => ⟨_, h1, ?_⟩, fun hw => absurd hin hw⟩
    refine base_locks (δ := .idle U) (r := s.readers) (w := put s.writer (idx (.marked n)) none) h ht
      ⟨r.rest, r.once, fun _ hn => (by cases hn), fun _ hn => (by cases hn), fun _ hn => (by cases hn), fun _ hn => (by cases hn),
        fun _ hn => (by cases hn), fun _ _ _ _ _ hn => (by cases hn)⟩
      (fun q u hq => ?_) (fun u q hu hq => (h.rel u).reads q hq) (fun u q hu hq => ?_) (fun n hn => by rw [hδ] at hn; cases hn)
    · by_cases hl : q = idx (.marked n)
      · rw [hl, put_same] at hq; cases hq
      · rw [put_other _ _ hl] at hq; exact h.lock q u hq
    · have h2 := (h.rel u).writes q hq
      by_cases hl : idx (.marked q) = idx (.marked n)
      · rw [hl, hin] at h2
        exact absurd (Option.some.inj h2).symm hu
      · rw [put_other _ _ hl]; exact h2

/-! ## The whole -/

/-- The code of all threads is safe, and the invariant holds. -/
def Whole (o : Ops X) (G : Shape N E) (m₀ : Loc N E → X) (idx : Loc N E → L) (own : N → Nat) (s : State (Loc N E) X L) : Prop :=
  ∃ γ : Nat → Phase N E X, (∀ t c, s.threads[t]? = some c → Safe o G m₀ idx own t (γ t) c) ∧ Base o G m₀ idx own γ s

theorem whole_step (hG : G.Proper) (hs : o.Sound) (h : Whole o G m₀ idx own s) {s' : State (Loc N E) X L} (hst : step t s = some s') :
    Whole o G m₀ idx own s' := by
  obtain ⟨γ, hsafe, b⟩ := h
  have fin : ∀ {k : Code (Loc N E) X L} {δ m r w}, t < s.threads.length → Safe o G m₀ idx own t δ k →
      Base o G m₀ idx own (put γ t δ) { s with mem := m, readers := r, writer := w } →
      Whole o G m₀ idx own ⟨s.threads.set t k, m, r, w⟩ := by
    intro k δ m r w ht h1 h2
    refine ⟨put γ t δ, fun u c hu => ?_, base_threads h2 (List.length_set)⟩
    rcases set_get hu with ⟨rfl, rfl⟩ | ⟨hne, hu⟩
    · rw [put_same]; exact h1
    · rw [put_other _ _ hne]; exact hsafe u c hu
  rcases step_cases hst with ⟨a, k, hc, rfl⟩ | ⟨a, x, k, hc, rfl⟩ | ⟨l, k, hc, hl, rfl⟩ | ⟨l, k, hc, hl, hl', rfl⟩ | ⟨l, k, hc, hl, rfl⟩ |
    ⟨l, k, hc, hl', hl, rfl⟩ | ⟨c, k, hc, rfl⟩ | ⟨u, k, hc, hu, rfl⟩
  all_goals have ht := lt_of_get hc
  all_goals have hc' := hsafe t _ hc
  · obtain ⟨δ, h1, h2⟩ := safe_load hG hs b ht hc'
    exact fin ht h1 h2
  · obtain ⟨δ, h1, h2⟩ := safe_store hG b ht hc'
    exact fin ht h1 h2
  · obtain ⟨δ, h1, h2⟩ := safe_rdlock b ht hl hc'
    exact fin ht h1 h2
  · obtain ⟨δ, h1, h2⟩ := safe_wrlock b ht hl hl' hc'
    exact fin ht h1 h2
  · obtain ⟨δ, h1, h2⟩ := (safe_unlock b ht hc').1 hl
    exact fin ht h1 h2
  · obtain ⟨δ, h1, h2⟩ := (safe_unlock b ht hc').2 hl'
    exact fin ht h1 h2
  · generalize γ t = δ at hc'
    cases hc'
  · generalize γ t = δ at hc'
    cases hc'

theorem whole_reach (hG : G.Proper) (hs : o.Sound) {s₀ : State (Loc N E) X L} (h₀ : Whole o G m₀ idx own s₀) (h : Reach s₀ s) :
    Whole o G m₀ idx own s := by
  induction h with
  | init => exact h₀
  | step t _ h2 ih => exact whole_step hG hs ih h2

/-! ## Races -/

theorem stores {δ : Phase N E X} {l : Loc N E} {x : X} {k : Code (Loc N E) X L} (hc : Safe o G m₀ idx own t δ (.store l x k)) :
    ∃ n v a b U, δ = .crit n v a b U ∧ ((l = .vertex n ∧ o.vop.isSome = true) ∨ l = .marked n ∨
      ∃ e ∈ G.dep n, (l = .near e ∨ l = .far e) ∧ o.eop.isSome = true) := by
  cases hc with
  | sVertex hv _ => exact ⟨_, _, _, _, _, rfl, .inl ⟨rfl, hv⟩⟩
  | sNear ho he _ => exact ⟨_, _, _, _, _, rfl, .inr (.inr ⟨_, he, .inl rfl, ho⟩)⟩
  | sFar ho he _ => exact ⟨_, _, _, _, _, rfl, .inr (.inr ⟨_, he, .inr rfl, ho⟩)⟩
  | sMark _ _ _ _ => exact ⟨_, _, _, _, _, rfl, .inr (.inl rfl)⟩

theorem no_load (hG : G.Proper) (hs : o.Sound) (h : Base o G m₀ idx own γ s) {u : Nat} (hu : u < s.threads.length) (htu : t ≠ u)
    {n : N} {v : X} {a b : E → X} {U : List N} (hδ : γ t = .crit n v a b U) {l : Loc N E} {k : X → Code (Loc N E) X L}
    (hl : (l = .vertex n ∧ o.vop.isSome = true) ∨ l = .marked n ∨ ∃ e ∈ G.dep n, (l = .near e ∨ l = .far e) ∧ o.eop.isSome = true)
    (hc : Safe o G m₀ idx own u (γ u) (.load l k)) : False := by
  have hrel := hδ ▸ h.rel t
  have hcur := hrel.cur n rfl
  generalize hε : γ u = ε at hc
  have key : ∀ {δ'}, Ghost o G ε δ' → Base o G m₀ idx own (put γ u δ') s ∧ Rel o G idx own u δ' s := fun {δ'} hg => by
    have := base_ghost h hu (hε ▸ hg)
    refine ⟨this, ?_⟩
    have h' := this.rel u
    rwa [put_same] at h'
  -- the nodes of the two threads are different
  have diff : own n ≠ u := fun h' => htu (hcur.1.symm.trans h')
  -- the vertex of a dependant isn't stored
  have dep : ∀ {n' : N} {e : E}, o.Waits → own n' = u ∧ s.mem (.marked n') = 0 → e ∈ G.dep n' → G.dst e = n → False := by
    intro n' e hw hn' he hd
    have := hrel.prep n rfl hw e ((hG.pre n e).2 hd)
    rw [(hG.dep n' e).1 he] at this
    exact this hn'.2
  have edge : ∀ {n' : N} {e e' : E}, own n' = u → e ∈ G.dep n' → e' ∈ G.dep n → e ≠ e' := by
    rintro n' e e' hn' he he' rfl
    exact diff (by rw [← (hG.dep n e).1 he', (hG.dep n' e).1 he]; exact hn')
  have hrelu := hε ▸ h.rel u
  cases hc with
  | mark hg ho _ _ _ =>
    rcases hl with ⟨hl, -⟩ | hl | ⟨_, _, hl | hl, _⟩ <;> cases hl
    exact diff ho
  | @look _ _ p _ _ _ _ =>
    rcases hl with ⟨hl, -⟩ | hl | ⟨_, _, hl | hl, _⟩ <;> cases hl
    have h1 := h.lock _ _ (hrel.writes _ rfl)
    have h2 := hrelu.reads _ rfl
    rw [h1] at h2
    cases h2
  | vertex hg _ =>
    rcases hl with ⟨hl, -⟩ | hl | ⟨_, _, hl | hl, _⟩ <;> cases hl
    exact diff ((key hg).2.cur _ rfl).1
  | far hg hv _ he _ =>
    rcases hl with ⟨hl, -⟩ | hl | ⟨_, he', hl | hl, ho⟩ <;> cases hl
    have := (key hg).2.prep _ rfl (waits_of hs hv (.inl ho)) _ he
    rw [(hG.dep n _).1 he'] at this
    exact this hcur.2.1
  | before hg hv hb he _ =>
    rcases hl with ⟨hl, -⟩ | hl | ⟨_, _, hl | hl, _⟩ <;> cases hl
    exact (key hg).2.prep _ rfl (waits_of hs hv (.inr (.inl hb))) _ he hcur.2.1
  | near hg he _ =>
    rcases hl with ⟨hl, -⟩ | hl | ⟨_, he', hl | hl, _⟩ <;> cases hl
    exact edge ((key hg).2.cur _ rfl).1 he he' rfl
  | after hg hv ha he _ =>
    rcases hl with ⟨hl, -⟩ | hl | ⟨_, _, hl | hl, _⟩ <;> cases hl
    have := (key hg).2.cur _ rfl
    exact dep (waits_of hs hv (.inr (.inr ha))) ⟨this.1, this.2.1⟩ he rfl
  | cVertex _ =>
    rcases hl with ⟨hl, -⟩ | hl | ⟨_, _, hl | hl, _⟩ <;> cases hl
    exact diff (hrelu.cur _ rfl).1
  | cNear he _ =>
    rcases hl with ⟨hl, -⟩ | hl | ⟨_, he', hl | hl, _⟩ <;> cases hl
    exact edge (hrelu.cur _ rfl).1 he he' rfl
  | cAfter ho he _ =>
    rcases hl with ⟨hl, hv⟩ | hl | ⟨_, _, hl | hl, _⟩ <;> cases hl
    have := hrelu.cur _ rfl
    exact dep (waits_of hs hv (.inl ho)) ⟨this.1, this.2.1⟩ he rfl

theorem no_race (hG : G.Proper) (hs : o.Sound) (h : Whole o G m₀ idx own s) : ¬ Race s := by
  rintro ⟨t, u, c, d, l, w, htu, ht, hu, h1, h2⟩
  obtain ⟨γ, hsafe, b⟩ := h
  have h1' := hsafe t c ht
  have h2' := hsafe u d hu
  cases c with
  | store l' x k =>
    obtain ⟨rfl, -⟩ := h1
    obtain ⟨n, v, a, a', U, hδ, hl⟩ := stores h1'
    cases d with
    | load l'' k' =>
      obtain ⟨rfl, -⟩ := h2
      exact no_load hG hs b (lt_of_get hu) htu hδ hl h2'
    | store l'' x' k' =>
      obtain ⟨rfl, -⟩ := h2
      obtain ⟨n', v', a₁, a₂, U', hδ', hl'⟩ := stores h2'
      have c1 := (b.rel t).cur n (by rw [hδ]; rfl)
      have c2 := (b.rel u).cur n' (by rw [hδ']; rfl)
      have : n = n' := by
        rcases hl with ⟨hl, -⟩ | hl | ⟨e, he, hl | hl, _⟩ <;> rcases hl' with ⟨hl', -⟩ | hl' | ⟨e', he', hl' | hl', _⟩ <;> rw [hl] at hl' <;>
          cases hl'
        · rfl
        · rfl
        · exact ((hG.dep n e).1 he).symm.trans ((hG.dep n' e).1 he')
        · exact ((hG.dep n e).1 he).symm.trans ((hG.dep n' e).1 he')
      subst this
      exact htu (c1.1.symm.trans c2.1)
    | _ => exact h2
  | load l' k => exact absurd h1.2 (by simp)
  | _ => exact h1

end Cru.Pool
