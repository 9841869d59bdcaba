import Verif.Proofs.FilterEdges
import Verif.Proofs.Rover
import Verif.Proofs.Trav

/-! # Filtering: the traversal that deletes edges -/

namespace Cru

namespace Bag

open Net

variable {n : Nat} {P G E : Type}

/-- Executions of one task are executions of another if handling packets is the same whenever an invariant holds. -/
theorem Reach.congr {T T' : Task n P G E} {i₀ : P} {g₀ : G} (hdest : T'.dest = T.dest) (henv : T'.env = T.env)
    (h : ∀ g p rest, Bag.Reach T i₀ g₀ (g, p ::ₘ rest) → T'.handle (T.dest p) g p = T.handle (T.dest p) g p) {x : G × Multiset P}
    (hx : Bag.Reach T i₀ g₀ x) : Bag.Reach T' i₀ g₀ x := by
  induction hx with
  | init => exact .init
  | step hr hs ih =>
    cases hs with
    | env e g m =>
      have := Bag.Reach.step ih (Bag.Step.env e g m)
      rw [henv] at this
      exact this
    | handle g p rest =>
      have := Bag.Reach.step ih (Bag.Step.handle g p rest)
      simp only [Bag.produced, hdest, h g p rest hr] at this
      exact this

/-- If the other one terminates, so does the first. -/
theorem acc_congr {T T' : Task n P G E} {i₀ : P} {g₀ : G} (hdest : T'.dest = T.dest) (henv : T'.env = T.env)
    (h : ∀ g p rest, Bag.Reach T i₀ g₀ (g, p ::ₘ rest) → T'.handle (T.dest p) g p = T.handle (T.dest p) g p)
    (hacc : ∀ x, Bag.Reach T' i₀ g₀ x → Acc (fun y x => Bag.Handles T' x y) x) :
    ∀ x, Bag.Reach T i₀ g₀ x → Acc (fun y x => Bag.Handles T x y) x := by
  intro x hx
  have := hacc x (hx.congr hdest henv h)
  induction this with
  | intro x _ ih =>
    refine Acc.intro _ fun y hy => ?_
    have hy' : Bag.Handles T' x y := by
      obtain ⟨p, rest, h1, h2⟩ := hy
      refine ⟨p, rest, h1, ?_⟩
      have := h x.1 p rest (by rw [← h1]; exact hx)
      rw [h2]
      simp only [Bag.produced, hdest, this]
    have hr : Bag.Reach T i₀ g₀ y := by
      obtain ⟨p, rest, h1, h2⟩ := hy
      obtain ⟨g, bag⟩ := x
      simp only at h1 h2
      subst h1 h2
      exact hx.step (Bag.Step.handle g p rest)
    exact ih y hy' hr

end Bag

namespace Filter

open Net

variable {n : Nat} {N V L : Type} [DecidableEq N] [DecidableEq L] {f : Filter V L} {g : Gr N V L} {backwards : Bool} {del : Fin n → List N}
  {addr : N → Nat} {hn : 0 < n} {a : N}

/-- The node belongs to the set `deleted` of its port. -/
abbrev Dead (del : Fin n → List N) (addr : N → Nat) (hn : 0 < n) (m : N) : Prop := m ∈ del (Build.lane hn (addr m))

/-- The nodes to which packets are sent on receipt of a node for the first time. -/
def arcs (f : Filter V L) (g : Gr N V L) (backwards : Bool) (del : Fin n → List N) (addr : N → Nat) (hn : 0 < n) (m : N) : List N :=
  if Dead del addr hn m then [] else if backwards then (g.inn m).map Prod.snd else (pick f g m (g.out m)).1.map Prod.snd

/-- Packets that never occur in traversals that aren't backwards. -/
def stray (addr : N → Nat) (hn : 0 < n) (s : Trav.Job n N (Mem N L)) : Pkt N L → Bool
  | .visit _ _ => false
  | .cutForward o _ => decide (o ∉ s.seen (Build.lane hn (addr o)))
  | .cutBack _ _ _ => true

/-- The task with those packets ignored. -/
def calm (f : Filter V L) (g : Gr N V L) (backwards : Bool) (del : Fin n → List N) (addr : N → Nat) (hn : 0 < n) :
    Task n (Pkt N L) (Trav.Job n N (Mem N L)) Unit where
  dest p := Build.lane hn (addr p.receiver)
  handle i s p := if backwards = false ∧ stray addr hn s p = true then (s, [], false) else handle f g backwards del i s p
  env _ s := { s with killed := 1 }

def Pkt.node : Pkt N L → Option N
  | .visit m _ => some m
  | _ => none

def Pkt.weight : Pkt N L → Nat
  | .visit _ _ => 0
  | _ => 1

omit [DecidableEq N] [DecidableEq L] in
theorem cutBacks_node (m : N) (es : List (L × N)) : (cutBacks m es).filterMap Pkt.node = [] := by
  induction es with
  | nil => rfl
  | cons e es ih => rw [cutBacks, List.filterMap_cons]; exact ih

omit [DecidableEq N] [DecidableEq L] in
theorem request_node (m : N) (c : Option (N × L)) : (request g backwards m c).filterMap Pkt.node = [] := by
  unfold request
  split
  · exact cutBacks_node m _
  · rcases c with _ | ⟨o, l⟩ <;> simp [Pkt.node]

omit [DecidableEq N] [DecidableEq L] in
theorem scatter_node (m : N) (es : List (L × N)) :
    (scatter g backwards m es).filterMap Pkt.node = if backwards then (g.inn m).map Prod.snd else es.map Prod.snd := by
  unfold scatter
  split
  · simp [List.filterMap_map, Pkt.node, Function.comp_def, List.filterMap_eq_map']
  · simp [List.filterMap_map, Pkt.node, Function.comp_def, List.filterMap_eq_map']

/-- The cases of handling a packet: everything stays as it is, or an action is taken. -/
theorem handle_cases (i : Fin n) (s : Trav.Job n N (Mem N L)) (p : Pkt N L) :
    ∃ sample stop, (∀ j, j ≠ i → stop j = s.stop j) ∧ (stop i = false → s.stop i = false) ∧ (stop i = true → s.stop i = true ∨ s.killed ≠ 0) ∧
      ((handle f g backwards del i s p = ({ s with sample := sample, stop := stop }, [], false) ∧ ¬ (s.err i = 0 ∧ stop i = false)) ∨
        (handle f g backwards del i s p = act f g backwards del i { s with sample := sample, stop := stop } p ∧ s.err i = 0 ∧ stop i = false)) := by
  obtain ⟨sample, stop, e, h1, h2, h3⟩ := Trav.poll_eq s i
  refine ⟨sample, stop, h1, h2, h3, ?_⟩
  unfold handle
  dsimp only
  rw [e]
  by_cases c : s.err i ≠ 0 ∨ stop i = true
  · left
    rw [if_pos c]
    refine ⟨rfl, fun h => ?_⟩
    rcases c with c | c
    · exact c h.1
    · rw [h.2] at c; cases c
  · right
    rw [if_neg c]
    rw [not_or] at c
    exact ⟨rfl, not_not.1 c.1, by simpa using c.2⟩

theorem act_others (i : Fin n) (s : Trav.Job n N (Mem N L)) (p : Pkt N L) (j : Fin n) (hj : j ≠ i) :
    (act f g backwards del i s p).1.seen j = s.seen j ∧ (act f g backwards del i s p).1.err j = s.err j := by
  unfold act
  split
  · split
    · exact ⟨rfl, rfl⟩
    · exact ⟨rfl, Function.update_of_ne hj _ _⟩
  · split
    · exact ⟨rfl, Function.update_of_ne hj _ _⟩
    · exact ⟨rfl, rfl⟩
  · split
    · exact ⟨rfl, rfl⟩
    · split
      · exact ⟨Function.update_of_ne hj _ _, rfl⟩
      · exact ⟨Function.update_of_ne hj _ _, Function.update_of_ne hj _ _⟩

theorem act_stop (i : Fin n) (s : Trav.Job n N (Mem N L)) (p : Pkt N L) :
    (act f g backwards del i s p).1.stop = s.stop ∧ (act f g backwards del i s p).1.killed = s.killed ∧ (act f g backwards del i s p).2.2 = false := by
  unfold act
  repeat' split
  all_goals exact ⟨rfl, rfl, rfl⟩

theorem handle_others (i : Fin n) (s : Trav.Job n N (Mem N L)) (p : Pkt N L) (j : Fin n) (hj : j ≠ i) :
    (handle f g backwards del i s p).1.seen j = s.seen j ∧ (handle f g backwards del i s p).1.err j = s.err j ∧
    (handle f g backwards del i s p).1.stop j = s.stop j := by
  obtain ⟨sample, stop, h1, -, -, ⟨e, -⟩ | ⟨e, -⟩⟩ := handle_cases (f := f) (g := g) (backwards := backwards) (del := del) i s p
  · rw [e]; exact ⟨rfl, rfl, h1 j hj⟩
  · rw [e]
    obtain ⟨a1, a2⟩ := act_others (f := f) (g := g) (backwards := backwards) (del := del) i { s with sample := sample, stop := stop } p j hj
    exact ⟨a1, a2, by rw [(act_stop i _ p).1]; exact h1 j hj⟩

theorem handle_killed (i : Fin n) (s : Trav.Job n N (Mem N L)) (p : Pkt N L) :
    (handle f g backwards del i s p).1.killed = s.killed ∧ (handle f g backwards del i s p).2.2 = false := by
  obtain ⟨sample, stop, -, -, -, ⟨e, -⟩ | ⟨e, -⟩⟩ := handle_cases (f := f) (g := g) (backwards := backwards) (del := del) i s p
  · rw [e]; exact ⟨rfl, rfl⟩
  · rw [e]; exact (act_stop i _ p).2

/-- The traversal, with stray packets ignored. -/
def rover (f : Filter V L) (g : Gr N V L) (backwards : Bool) (del : Fin n → List N) (addr : N → Nat) (hn : 0 < n) :
    Rover (calm f g backwards del addr hn) (arcs f g backwards del addr hn) where
  I s := backwards = false → ∀ m, m ∉ s.seen (Build.lane hn (addr m)) → s.mem.out m = g.out m
  node := Pkt.node
  weight := Pkt.weight
  lane m := Build.lane hn (addr m)
  seen s := s.seen
  ok s i := s.err i = 0 ∧ s.stop i = false
  dest p m h := by
    cases p with
    | visit m' c => cases h; rfl
    | cutForward o e => cases h
    | cutBack o e b => cases h
  inv s p hI := by
    intro hb
    have hI := hI hb
    simp only [calm]
    split
    · exact hI
    rename_i hst
    have hst : stray addr hn s p = false := by
      rw [Bool.eq_false_iff]
      exact fun h => hst ⟨hb, h⟩
    generalize hi : Build.lane hn (addr p.receiver) = i
    obtain ⟨sample, stop, -, -, -, ⟨e, -⟩ | ⟨e, -⟩⟩ := handle_cases (f := f) (g := g) (backwards := backwards) (del := del) i s p
    · rw [e]; exact hI
    · rw [e]
      cases p with
      | cutForward o e =>
        simp only [act]
        split
        · intro m hm
          have : m ≠ o := by
            rintro rfl
            simp only [stray, decide_eq_false_iff_not, not_not] at hst
            exact hm hst
          simp only [Function.update_of_ne this]
          exact hI m hm
        · exact hI
      | cutBack o e b => simp [stray] at hst
      | visit m c =>
        simp only [act]
        have hi' : i = Build.lane hn (addr m) := hi.symm
        have key : ∀ m', m' ∉ Function.update s.seen i (s.seen i ++ [m]) (Build.lane hn (addr m')) → m' ≠ m ∧ m' ∉ s.seen (Build.lane hn (addr m')) := by
          intro m' hm'
          refine ⟨?_, fun h => hm' ?_⟩
          · rintro rfl
            rw [← hi', Function.update_self] at hm'
            simp at hm'
          · by_cases hj : Build.lane hn (addr m') = i
            · rw [hj, Function.update_self]; rw [hj] at h; simp [h]
            · rw [Function.update_of_ne hj]; exact h
        split
        · exact hI
        · split
          · intro m' hm'
            obtain ⟨h1, h2⟩ := key m' hm'
            simp only [Function.update_of_ne h1]
            exact hI m' h2
          · intro m' hm'
            obtain ⟨h1, h2⟩ := key m' hm'
            simp only [Function.update_of_ne h1]
            exact hI m' h2
  others s p j hj := by
    simp only [calm] at hj ⊢
    split
    · exact ⟨rfl, id⟩
    · obtain ⟨h1, h2, h3⟩ := handle_others (f := f) (g := g) (backwards := backwards) (del := del) _ s p j hj
      exact ⟨h1, fun h => ⟨h2 ▸ h.1, h3 ▸ h.2⟩⟩
  undeferred s p := by
    simp only [calm]
    split
    · rfl
    · exact (handle_killed _ s p).2
  mail s p hp := by
    simp only [calm]
    have hw : 0 < Pkt.weight p := by
      cases p with
      | visit m c => cases hp
      | cutForward o e => exact Nat.one_pos
      | cutBack o e b => exact Nat.one_pos
    split
    · exact ⟨rfl, rfl, hw, id⟩
    generalize Build.lane hn (addr p.receiver) = i
    obtain ⟨sample, stop, -, h2, -, ⟨e, h4⟩ | ⟨e, h4⟩⟩ := handle_cases (f := f) (g := g) (backwards := backwards) (del := del) i s p
    · rw [e]; exact ⟨rfl, rfl, hw, fun h => absurd h h4⟩
    · rw [e]
      have hok : s.err i = 0 ∧ s.stop i = false := ⟨h4.1, h2 h4.2⟩
      cases p with
      | visit m c => cases hp
      | cutForward o e =>
        simp only [act]
        split
        · exact ⟨rfl, rfl, hw, fun _ => hok⟩
        · exact ⟨rfl, rfl, hw, fun _ => hok⟩
      | cutBack o e b =>
        simp only [act]
        split
        · exact ⟨rfl, rfl, hw, fun _ => hok⟩
        · exact ⟨rfl, rfl, hw, fun _ => hok⟩
  step s p m hI hp := by
    cases p with
    | cutForward o e => cases hp
    | cutBack o e b => cases hp
    | visit m' c =>
      cases hp
      have hst : ¬ (backwards = false ∧ stray addr hn s (.visit m c) = true) := fun h => by simp [stray] at h
      simp only [calm]
      rw [if_neg hst]
      generalize hi : Build.lane hn (addr (Pkt.receiver (.visit m c : Pkt N L))) = i
      have hi' : Build.lane hn (addr m) = i := hi
      obtain ⟨sample, stop, -, h2, -, ⟨e, h4⟩ | ⟨e, h4⟩⟩ := handle_cases (f := f) (g := g) (backwards := backwards) (del := del) i s (.visit m c)
      · rw [e]; exact .inl ⟨rfl, rfl, fun h => absurd h h4⟩
      · rw [e]
        have hok : s.err i = 0 ∧ s.stop i = false := ⟨h4.1, h2 h4.2⟩
        simp only [act]
        by_cases c1 : m ∈ s.seen i
        · rw [if_pos c1]
          refine .inl ⟨rfl, ?_, fun _ => ⟨hok, c1⟩⟩
          split
          · exact request_node m c
          · rfl
        rw [if_neg c1]
        by_cases c2 : m ∈ del i
        · rw [if_pos c2]
          refine .inr ⟨c1, by simp, fun q hq => ?_, fun _ => ⟨hok, fun q hq => ?_⟩⟩
          · rw [request_node] at hq; cases hq
          · unfold arcs Dead at hq
            rw [hi', if_pos c2] at hq
            cases hq
        · rw [if_neg c2]
          have har : arcs f g backwards del addr hn m =
              if backwards then (g.inn m).map Prod.snd else (pick f g m (g.out m)).1.map Prod.snd := by
            unfold arcs Dead
            rw [hi', if_neg c2]
          have hsc : (scatter g backwards m (pick f g m (s.mem.out m)).1).filterMap Pkt.node = arcs f g backwards del addr hn m := by
            rw [scatter_node, har]
            by_cases hb : backwards = true
            · simp [hb]
            · have hb : backwards = false := by simpa using hb
              rw [hI hb m (by rw [hi']; exact c1)]
          refine .inr ⟨c1, by simp, fun q hq => ?_, fun _ => ⟨hok, fun q hq => ?_⟩⟩
          · rw [← hsc]; exact hq
          · rw [← hsc] at hq; exact hq
  env e s := ⟨rfl, fun h => h, fun i h => h⟩

/-! ## The ledger of edges -/

/-- How many packets are about to delete an edge. -/
def load (o : N) (e : L × N) (bag : Multiset (Pkt N L)) : Nat := bag.count (.visit e.2 (some (o, e.1))) + bag.count (.cutForward o e)

theorem load_add (o : N) (e : L × N) (a b : Multiset (Pkt N L)) : load o e (a + b) = load o e a + load o e b := by
  simp only [load, Multiset.count_add]; omega

theorem load_zero (o : N) (e : L × N) : load o e (0 : Multiset (Pkt N L)) = 0 := by simp [load]

/-- What's known in traversals that aren't backwards, where `fine` is whether nothing has gone wrong. -/
structure Fwd (f : Filter V L) (g : Gr N V L) (del : Fin n → List N) (addr : N → Nat) (hn : 0 < n) (seen : Fin n → List N)
    (out : N → List (L × N)) (fine : Prop) (bag : Multiset (Pkt N L)) : Prop where
  home : ∀ i, ∀ m ∈ seen i, Build.lane hn (addr m) = i
  fresh : ∀ m, m ∉ seen (Build.lane hn (addr m)) → out m = g.out m
  gone : ∀ m, m ∈ seen (Build.lane hn (addr m)) → Dead del addr hn m → out m = []
  visit : ∀ m o l, .visit m (some (o, l)) ∈ bag → o ∈ seen (Build.lane hn (addr o)) ∧ ¬ Dead del addr hn o
  cut : ∀ o e, .cutForward o e ∈ bag → o ∈ seen (Build.lane hn (addr o)) ∧ ¬ Dead del addr hn o ∧ Dead del addr hn e.2
  back : ∀ o e b, .cutBack o e b ∉ bag
  alive : ∀ o, o ∈ seen (Build.lane hn (addr o)) → ¬ Dead del addr hn o → ∀ e, ¬ Dead del addr hn e.2 →
    (out o).count e = (pick f g o (g.out o)).1.count e
  owed : ∀ o, o ∈ seen (Build.lane hn (addr o)) → ¬ Dead del addr hn o → ∀ e, Dead del addr hn e.2 →
    load o e bag ≤ (out o).count e ∧ (fine → (out o).count e = load o e bag)

namespace Fwd

variable {seen : Fin n → List N} {out : N → List (L × N)} {fine fine' : Prop} {bag : Multiset (Pkt N L)} {p : Pkt N L} {m : N}

theorem weaken (h : Fwd f g del addr hn seen out fine bag) (hf : fine' → fine) : Fwd f g del addr hn seen out fine' bag :=
  ⟨h.home, h.fresh, h.gone, h.visit, h.cut, h.back, h.alive, fun o h1 h2 e h3 => ⟨(h.owed o h1 h2 e h3).1, fun x => (h.owed o h1 h2 e h3).2 (hf x)⟩⟩

theorem drop (h : Fwd f g del addr hn seen out fine (p ::ₘ bag)) : Fwd f g del addr hn seen out False bag := by
  refine ⟨h.home, h.fresh, h.gone, fun m o l hq => h.visit m o l (Multiset.mem_cons_of_mem hq), fun o e hq => h.cut o e (Multiset.mem_cons_of_mem hq),
    fun o e b hq => h.back o e b (Multiset.mem_cons_of_mem hq), h.alive, fun o h1 h2 e h3 => ⟨?_, False.elim⟩⟩
  have := (h.owed o h1 h2 e h3).1
  rw [← Multiset.singleton_add, load_add] at this
  omega

theorem replace (h : Fwd f g del addr hn seen out fine (p ::ₘ bag)) (qs : Multiset (Pkt N L))
    (h1 : ∀ q ∈ qs, ∃ o e, q = .cutForward o e ∧ o ∈ seen (Build.lane hn (addr o)) ∧ ¬ Dead del addr hn o ∧ Dead del addr hn e.2)
    (h2 : ∀ o e, Dead del addr hn e.2 → load o e qs = load o e {p}) : Fwd f g del addr hn seen out fine (qs + bag) := by
  refine ⟨h.home, h.fresh, h.gone, fun m o l hq => ?_, fun o e hq => ?_, fun o e b hq => ?_, h.alive, fun o h3 h4 e h5 => ?_⟩
  · rcases Multiset.mem_add.1 hq with hq | hq
    · obtain ⟨_, _, h, -⟩ := h1 _ hq; cases h
    · exact h.visit m o l (Multiset.mem_cons_of_mem hq)
  · rcases Multiset.mem_add.1 hq with hq | hq
    · obtain ⟨_, _, h, h'⟩ := h1 _ hq; cases h; exact h'
    · exact h.cut o e (Multiset.mem_cons_of_mem hq)
  · rcases Multiset.mem_add.1 hq with hq | hq
    · obtain ⟨_, _, h, -⟩ := h1 _ hq; cases h
    · exact h.back o e b (Multiset.mem_cons_of_mem hq)
  · have := h.owed o h3 h4 e h5
    rw [← Multiset.singleton_add, load_add] at this
    rw [load_add, h2 o e h5]
    exact this

theorem replace_alive {c : Option (N × L)} (h : Fwd f g del addr hn seen out fine (.visit m c ::ₘ bag)) (hm : ¬ Dead del addr hn m) :
    Fwd f g del addr hn seen out fine bag := by
  have := h.replace 0 (fun q hq => absurd hq (Multiset.notMem_zero q)) fun o e he => by
    rw [load_zero]
    unfold load
    rw [Multiset.count_singleton, Multiset.count_singleton, if_neg, if_neg]
    · intro h; cases h
    · intro h; cases h; exact hm he
  rwa [zero_add] at this

theorem replace_dead {c : Option (N × L)} (h : Fwd f g del addr hn seen out fine (.visit m c ::ₘ bag)) (hm : Dead del addr hn m) :
    Fwd f g del addr hn seen out fine (((request g false m c : List (Pkt N L)) : Multiset (Pkt N L)) + bag) := by
  refine h.replace _ (fun q hq => ?_) fun o e he => ?_
  · rcases c with _ | ⟨o, l⟩
    · simp [request] at hq
    · have hq : q = .cutForward o (l, m) := by simpa [request] using hq
      obtain ⟨h1, h2⟩ := h.visit m o l (by simp)
      exact ⟨o, _, hq, h1, h2, hm⟩
  · rcases c with _ | ⟨o', l⟩
    · simp [request, load, Multiset.count_singleton]
    · have : ((request g false m (some (o', l)) : List (Pkt N L)) : Multiset (Pkt N L)) = {.cutForward o' (l, m)} := rfl
      rw [this]
      unfold load
      simp only [Multiset.count_singleton]
      obtain ⟨l', m'⟩ := e
      simp only [Pkt.visit.injEq, Pkt.cutForward.injEq, Option.some.injEq, Prod.mk.injEq, reduceCtorEq, if_false, Nat.zero_add, Nat.add_zero]
      congr 1
      simp only [eq_iff_iff]
      constructor
      · rintro ⟨h1, h2, h3⟩; exact ⟨h3, h1, h2⟩
      · rintro ⟨h1, h2, h3⟩; exact ⟨h2, h3, h1⟩

theorem cutting (h : Fwd f g del addr hn seen out fine (.cutForward o e ::ₘ bag)) :
    e ∈ out o ∧ Fwd f g del addr hn seen (Function.update out o ((out o).erase e)) fine bag := by
  obtain ⟨h1, h2, h3⟩ := h.cut o e (by simp)
  have h4 := h.owed o h1 h2 e h3
  have h5 : load o e (.cutForward o e ::ₘ bag) = load o e bag + 1 := by
    rw [← Multiset.singleton_add, load_add]
    have : load o e {.cutForward o e} = 1 := by simp [load, Multiset.count_singleton]
    omega
  have h6 : ∀ o' e', (o', e') ≠ (o, e) → load o' e' (.cutForward o e ::ₘ bag) = load o' e' bag := by
    intro o' e' hne
    rw [← Multiset.singleton_add, load_add]
    have : load o' e' {.cutForward o e} = 0 := by
      simp only [load, Multiset.count_singleton]
      rw [if_neg, if_neg]
      · intro h; cases h; exact hne rfl
      · intro h; cases h
    omega
  have hmem : e ∈ out o := by
    rw [← List.count_pos_iff]
    omega
  refine ⟨hmem, h.home, fun m hm => ?_, fun m hm hd => ?_, fun m o l hq => h.visit m o l (Multiset.mem_cons_of_mem hq),
    fun o e hq => h.cut o e (Multiset.mem_cons_of_mem hq), fun o e b hq => h.back o e b (Multiset.mem_cons_of_mem hq),
    fun o' h7 h8 e' h9 => ?_, fun o' h7 h8 e' h9 => ?_⟩
  · have : m ≠ o := by rintro rfl; exact hm h1
    rw [Function.update_of_ne this]; exact h.fresh m hm
  · have : m ≠ o := by rintro rfl; exact h2 hd
    rw [Function.update_of_ne this]; exact h.gone m hm hd
  · rw [← h.alive o' h7 h8 e' h9]
    by_cases hc : o' = o
    · subst hc
      rw [Function.update_self, List.count_erase_of_ne]
      rintro rfl
      exact h9 h3
    · rw [Function.update_of_ne hc]
  · have h10 := h.owed o' h7 h8 e' h9
    by_cases hc : o' = o
    · subst hc
      rw [Function.update_self]
      by_cases he : e' = e
      · subst he
        rw [List.count_erase_self]
        rw [h5] at h10
        refine ⟨by omega, fun hf => ?_⟩
        have := h10.2 hf
        omega
      · rw [List.count_erase_of_ne he, ← h6 o' e' (by simp [he])]
        exact h10
    · rw [Function.update_of_ne hc, ← h6 o' e' (by simp [hc])]
      exact h10

theorem seen_mono {i : Fin n} {m' : N} {j : Fin n} (h : m' ∈ seen j) : m' ∈ Function.update seen i (seen i ++ [m]) j := by
  by_cases hj : j = i
  · subst hj; rw [Function.update_self]; simp [h]
  · rw [Function.update_of_ne hj]; exact h

theorem seen_new {i : Fin n} {m' : N} {j : Fin n} (h : m' ∈ Function.update seen i (seen i ++ [m]) j) : m' ∈ seen j ∨ (m' = m ∧ j = i) := by
  by_cases hj : j = i
  · subst hj; rw [Function.update_self] at h; simpa using h
  · rw [Function.update_of_ne hj] at h; exact .inl h

theorem mark_dead {i : Fin n} (h : Fwd f g del addr hn seen out fine bag) (hi : Build.lane hn (addr m) = i) (hm : m ∉ seen i)
    (hd : Dead del addr hn m) :
    Fwd f g del addr hn (Function.update seen i (seen i ++ [m])) (Function.update out m []) fine bag := by
  have hold : ∀ o, o ∈ Function.update seen i (seen i ++ [m]) (Build.lane hn (addr o)) → ¬ Dead del addr hn o →
      o ≠ m ∧ o ∈ seen (Build.lane hn (addr o)) := by
    intro o ho hno
    have hne : o ≠ m := by rintro rfl; exact hno hd
    rcases seen_new ho with ho | ⟨rfl, -⟩
    · exact ⟨hne, ho⟩
    · exact absurd rfl hne
  refine ⟨fun j m' hm' => ?_, fun m' hm' => ?_, fun m' hm' hd' => ?_, fun m' o l hq => ?_, fun o e hq => ?_, h.back, fun o h1 h2 e h3 => ?_, fun o h1 h2 e h3 => ?_⟩
  · rcases seen_new hm' with hm' | ⟨rfl, rfl⟩
    · exact h.home j m' hm'
    · exact hi
  · have hne : m' ≠ m := by
      rintro rfl
      rw [hi, Function.update_self] at hm'
      simp at hm'
    rw [Function.update_of_ne hne]
    exact h.fresh m' fun hc => hm' (seen_mono hc)
  · by_cases hne : m' = m
    · subst hne; rw [Function.update_self]
    · rw [Function.update_of_ne hne]
      rcases seen_new hm' with hm' | ⟨rfl, -⟩
      · exact h.gone m' hm' hd'
      · exact absurd rfl hne
  · obtain ⟨h1, h2⟩ := h.visit m' o l hq
    exact ⟨seen_mono h1, h2⟩
  · obtain ⟨h1, h2, h3⟩ := h.cut o e hq
    exact ⟨seen_mono h1, h2, h3⟩
  · obtain ⟨h4, h5⟩ := hold o h1 h2
    rw [Function.update_of_ne h4]
    exact h.alive o h5 h2 e h3
  · obtain ⟨h4, h5⟩ := hold o h1 h2
    rw [Function.update_of_ne h4]
    exact h.owed o h5 h2 e h3

theorem count_scatter (o : N) (e : L × N) (es : List (L × N)) :
    load o e ((scatter g false m es : List (Pkt N L)) : Multiset (Pkt N L)) = if o = m then es.count e else 0 := by
  unfold scatter load
  simp only [Bool.false_eq_true, if_false, Multiset.coe_count]
  induction es with
  | nil => simp
  | cons d es ih =>
    simp only [List.map_cons, List.count_cons]
    obtain ⟨l, t⟩ := d
    obtain ⟨l', t'⟩ := e
    by_cases ho : o = m
    · subst ho
      simp only [if_true] at ih ⊢
      have : (List.map (fun e : L × N => Pkt.visit e.2 (some (o, e.1))) es).count (.cutForward o (l', t')) = 0 := by
        rw [List.count_eq_zero]
        simp
      have h2 : ((Pkt.visit t (some (o, l)) : Pkt N L) == .cutForward o (l', t')) = false := by simp
      have h3 : ((Pkt.visit t (some (o, l)) : Pkt N L) == .visit t' (some (o, l'))) = ((l, t) == (l', t')) := by
        rw [Bool.eq_iff_iff]
        simp [and_comm]
      rw [h2, h3]
      simp only [Bool.false_eq_true, if_false]
      omega
    · simp only [if_neg ho] at ih ⊢
      have h2 : ((Pkt.visit t (some (m, l)) : Pkt N L) == .cutForward o (l', t')) = false := by simp
      have h3 : ((Pkt.visit t (some (m, l)) : Pkt N L) == .visit t' (some (o, l'))) = false := by
        simp; intro _ h; exact absurd h.symm ho
      rw [h2, h3]
      simp only [Bool.false_eq_true, if_false]
      omega

theorem mark_alive {i : Fin n} (h : Fwd f g del addr hn seen out fine bag) (hi : Build.lane hn (addr m) = i) (hm : m ∉ seen i)
    (hd : ¬ Dead del addr hn m) :
    Fwd f g del addr hn (Function.update seen i (seen i ++ [m])) (Function.update out m (pick f g m (g.out m)).1) fine
      (((scatter g false m (pick f g m (g.out m)).1 : List (Pkt N L)) : Multiset (Pkt N L)) + bag) := by
  have hsc : ∀ q ∈ scatter g false m (pick f g m (g.out m)).1, ∃ m' l, q = .visit m' (some (m, l)) := by
    intro q hq
    simp only [scatter, Bool.false_eq_true, if_false, List.mem_map] at hq
    obtain ⟨e, -, rfl⟩ := hq
    exact ⟨_, _, rfl⟩
  have hself : m ∈ Function.update seen i (seen i ++ [m]) (Build.lane hn (addr m)) := by
    rw [hi, Function.update_self]; simp
  refine ⟨fun j m' hm' => ?_, fun m' hm' => ?_, fun m' hm' hd' => ?_, fun m' o l hq => ?_, fun o e hq => ?_, fun o e b hq => ?_, fun o h1 h2 e h3 => ?_, fun o h1 h2 e h3 => ?_⟩
  · rcases seen_new hm' with hm' | ⟨rfl, rfl⟩
    · exact h.home j m' hm'
    · exact hi
  · have hne : m' ≠ m := by
      rintro rfl
      exact hm' hself
    rw [Function.update_of_ne hne]
    exact h.fresh m' fun hc => hm' (seen_mono hc)
  · have hne : m' ≠ m := by rintro rfl; exact hd hd'
    rw [Function.update_of_ne hne]
    rcases seen_new hm' with hm' | ⟨rfl, -⟩
    · exact h.gone m' hm' hd'
    · exact absurd rfl hne
  · rcases Multiset.mem_add.1 hq with hq | hq
    · obtain ⟨_, _, e⟩ := hsc _ hq
      cases e
      exact ⟨hself, hd⟩
    · obtain ⟨h1, h2⟩ := h.visit m' o l hq
      exact ⟨seen_mono h1, h2⟩
  · rcases Multiset.mem_add.1 hq with hq | hq
    · obtain ⟨_, _, e⟩ := hsc _ hq
      cases e
    · obtain ⟨h1, h2, h3⟩ := h.cut o e hq
      exact ⟨seen_mono h1, h2, h3⟩
  · rcases Multiset.mem_add.1 hq with hq | hq
    · obtain ⟨_, _, e⟩ := hsc _ hq
      cases e
    · exact h.back o e b hq
  · by_cases hne : o = m
    · subst hne; rw [Function.update_self]
    · rw [Function.update_of_ne hne]
      rcases seen_new h1 with h1 | ⟨rfl, -⟩
      · exact h.alive o h1 h2 e h3
      · exact absurd rfl hne
  · rw [load_add, count_scatter]
    by_cases hne : o = m
    · subst hne
      rw [Function.update_self, if_pos rfl]
      have h0 : load o e bag = 0 := by
        unfold load
        rw [Multiset.count_eq_zero.2, Multiset.count_eq_zero.2]
        · intro hq; exact hm (hi ▸ (h.cut _ _ hq).1)
        · intro hq; exact hm (hi ▸ (h.visit _ _ _ hq).1)
      rw [h0]
      exact ⟨le_rfl, fun _ => rfl⟩
    · rw [Function.update_of_ne hne, if_neg hne, Nat.zero_add]
      rcases seen_new h1 with h1 | ⟨rfl, -⟩
      · exact h.owed o h1 h2 e h3
      · exact absurd rfl hne

end Fwd

/-- What's known of errors: they're raised by user code on nodes received. -/
structure Errs (f : Filter V L) (g : Gr N V L) (del : Fin n → List N) (seen : Fin n → List N) (err : Fin n → Int) : Prop where
  raised : ∀ i, err i ≠ 0 → ∃ m ∈ seen i, m ∉ del i ∧ err i = (pick f g m (g.out m)).2.2
  none : ∀ i, err i = 0 → ∀ m ∈ seen i, m ∉ del i → (pick f g m (g.out m)).2.2 = 0

/-- Nothing is wrong. -/
def Fine (s : Trav.Job n N (Mem N L)) : Prop := ∀ i, s.err i = 0 ∧ s.stop i = false

theorem fwd_reach (hdel : f.thinner = none ∨ ∀ i, del i = []) :
    ∀ x, Bag.Reach (cutting f g false del addr hn) (.visit a none) (Trav.start (mem g)) x →
      Fwd f g del addr hn x.1.seen x.1.mem.out (Fine x.1) x.2 ∧ Errs f g del x.1.seen x.1.err := by
  intro x hx
  induction hx with
  | init =>
    refine ⟨⟨?_, fun _ _ => rfl, ?_, ?_, ?_, ?_, ?_, ?_⟩, ?_, ?_⟩
    · intro i m hm; cases hm
    · intro m hm; cases hm
    · intro m o l hq; simp at hq
    · intro o e hq; simp at hq
    · intro o e b hq; simp at hq
    · intro o ho; cases ho
    · intro o ho; cases ho
    · intro i hi; exact absurd rfl hi
    · intro i _ m hm; cases hm
  | step hr hs ih =>
    cases hs with
    | env e s m => exact ih
    | handle s p rest =>
      obtain ⟨ih, ie⟩ := ih
      dsimp only at ih ie ⊢
      have hprod : Bag.produced (cutting f g false del addr hn) s p =
          (((cutting f g false del addr hn).handle (Build.lane hn (addr p.receiver)) s p).2.1 : Multiset (Pkt N L)) := by
        simp only [Bag.produced, cutting, (handle_killed _ s p).2]
        simp
      rw [hprod]
      simp only [Filter.cutting]
      generalize hi : Build.lane hn (addr p.receiver) = i
      obtain ⟨sample, stop, hs1, hs2, -, ⟨e, h4⟩ | ⟨e, h4⟩⟩ := handle_cases (f := f) (g := g) (backwards := false) (del := del) i s p
      · rw [e]
        refine ⟨?_, ie⟩
        rw [show (([] : List (Pkt N L)) : Multiset (Pkt N L)) + rest = rest from zero_add _]
        exact ih.drop.weaken fun hf => h4 (hf i)
      · rw [e]
        have hfine : ∀ {s' : Trav.Job n N (Mem N L)}, s'.stop = stop → (∀ j, j ≠ i → s'.err j = s.err j) → Fine s' → Fine s := by
          intro s' e1 e2 hf j
          by_cases hj : j = i
          · subst hj; exact ⟨h4.1, hs2 h4.2⟩
          · refine ⟨(e2 j hj) ▸ (hf j).1, ?_⟩
            rw [← hs1 j hj, ← e1]; exact (hf j).2
        cases p with
        | cutBack o d b => exact absurd (Multiset.mem_cons_self _ _) (ih.back o d b)
        | cutForward o e =>
          obtain ⟨h1, h2⟩ := ih.cutting
          simp only [act]
          rw [if_pos h1]
          refine ⟨?_, ie⟩
          rw [show (([] : List (Pkt N L)) : Multiset (Pkt N L)) + rest = rest from zero_add _]
          exact h2.weaken (hfine rfl fun _ _ => rfl)
        | visit m c =>
          have hi' : Build.lane hn (addr m) = i := hi
          simp only [act]
          by_cases c1 : m ∈ s.seen i
          · rw [if_pos c1]
            refine ⟨?_, ie⟩
            by_cases hd : Dead del addr hn m
            · have : f.thinner.isNone = true ∧ m ∈ del i := by
                refine ⟨?_, hi' ▸ hd⟩
                rcases hdel with h | h
                · rw [h]; rfl
                · rw [Dead, h] at hd; cases hd
              rw [if_pos this]
              exact (ih.replace_dead hd).weaken (hfine rfl fun _ _ => rfl)
            · have : ¬ (f.thinner.isNone = true ∧ m ∈ del i) := fun h => hd (by rw [Dead, hi']; exact h.2)
              rw [if_neg this]
              rw [show (([] : List (Pkt N L)) : Multiset (Pkt N L)) + rest = rest from zero_add _]
              exact (ih.replace_alive hd).weaken (hfine rfl fun _ _ => rfl)
          · rw [if_neg c1]
            by_cases hd : m ∈ del i
            · rw [if_pos hd]
              have hd' : Dead del addr hn m := by rw [Dead, hi']; exact hd
              refine ⟨((ih.replace_dead hd').mark_dead hi' c1 hd').weaken (hfine rfl fun _ _ => rfl), fun j hj => ?_, fun j hj m' hm' hx' => ?_⟩
              · obtain ⟨m', h1, h2⟩ := ie.raised j hj
                exact ⟨m', Fwd.seen_mono h1, h2⟩
              · rcases Fwd.seen_new hm' with hm' | ⟨rfl, rfl⟩
                · exact ie.none j hj m' hm' hx'
                · exact absurd hd hx'
            · rw [if_neg hd]
              have hd' : ¬ Dead del addr hn m := by rw [Dead, hi']; exact hd
              have ho : s.mem.out m = g.out m := ih.fresh m (by rw [hi']; exact c1)
              simp only [ho]
              refine ⟨((ih.replace_alive hd').mark_alive hi' c1 hd').weaken (hfine rfl fun j hj => Function.update_of_ne hj _ _), fun j hj => ?_, fun j hj m' hm' hx' => ?_⟩
              · by_cases hji : j = i
                · subst hji
                  simp only [Function.update_self] at hj ⊢
                  exact ⟨m, by simp, hd, rfl⟩
                · simp only [Function.update_of_ne hji] at hj ⊢
                  exact ie.raised j hj
              · rcases Fwd.seen_new hm' with hm' | ⟨rfl, rfl⟩
                · refine ie.none j ?_ m' hm' hx'
                  by_cases hji : j = i
                  · subst hji; exact h4.1
                  · rwa [Function.update_of_ne hji] at hj
                · rwa [Function.update_self] at hj

/-- No packet is stray. -/
theorem calm_handle (hdel : f.thinner = none ∨ ∀ i, del i = []) (s : Trav.Job n N (Mem N L)) (p : Pkt N L) (rest : Multiset (Pkt N L))
    (h : backwards = false → Bag.Reach (cutting f g backwards del addr hn) (.visit a none) (Trav.start (mem g)) (s, p ::ₘ rest)) :
    (calm f g backwards del addr hn).handle ((cutting f g backwards del addr hn).dest p) s p =
      (cutting f g backwards del addr hn).handle ((cutting f g backwards del addr hn).dest p) s p := by
  simp only [calm, cutting]
  rw [if_neg]
  rintro ⟨hb, hst⟩
  subst hb
  obtain ⟨h1, -⟩ := fwd_reach hdel _ (h rfl)
  cases p with
  | visit m c => simp [stray] at hst
  | cutBack o e b => exact h1.back o e b (by simp)
  | cutForward o e =>
    simp only [stray, decide_eq_true_eq] at hst
    exact hst (h1.cut o e (by simp)).1

theorem calm_reach (hdel : f.thinner = none ∨ ∀ i, del i = []) {x} (hx : Bag.Reach (cutting f g backwards del addr hn) (.visit a none) (Trav.start (mem g)) x) :
    Bag.Reach (calm f g backwards del addr hn) (.visit a none) (Trav.start (mem g)) x :=
  Bag.Reach.congr (T := cutting f g backwards del addr hn) (T' := calm f g backwards del addr hn) rfl rfl
    (fun s p rest h => calm_handle (a := a) hdel s p rest fun _ => h) hx

theorem rover_reach (hdel : f.thinner = none ∨ ∀ i, del i = []) {x} (hx : Bag.Reach (cutting f g backwards del addr hn) (.visit a none) (Trav.start (mem g)) x) :
    (rover f g backwards del addr hn).Inv a x.1 x.2 :=
  Rover.inv_reach (W := rover f g backwards del addr hn) (fun _ => rfl) (fun _ _ _ => rfl) rfl _ (calm_reach hdel hx)

/-- Workers don't stop unless killed. -/
theorem cutting_stop : ∀ x, Bag.Reach (cutting f g backwards del addr hn) (.visit a none) (Trav.start (mem g)) x →
    x.1.killed = 0 → ∀ i, x.1.stop i = false := by
  intro x hx
  induction hx with
  | init => intro _ i; rfl
  | step hr hs ih =>
    cases hs with
    | env e s m => intro h; exact absurd (show (1 : Nat) = 0 from h) (by decide)
    | handle s p rest =>
      simp only [Filter.cutting]
      generalize Build.lane hn (addr p.receiver) = i
      intro hk
      rw [(handle_killed i s p).1] at hk
      intro j
      by_cases hj : j = i
      · subst hj
        obtain ⟨sample, stop, -, -, h3, ⟨e, -⟩ | ⟨e, h4⟩⟩ := handle_cases (f := f) (g := g) (backwards := backwards) (del := del) j s p
        · rw [e]
          by_contra hst
          rcases h3 (by simpa using hst) with h | h
          · rw [ih hk j] at h; cases h
          · exact h hk
        · rw [e, (act_stop j _ p).1]; exact h4.2
      · rw [(handle_others i s p j hj).2.2]; exact ih hk j

/-- Edges are never lost. -/
theorem conserved (hl : f.Lawful) : ∀ x, Bag.Reach (cutting f g backwards del addr hn) (.visit a none) (Trav.start (mem g)) x →
    ∀ m, (x.1.mem.out m ++ x.1.mem.cut m).Perm (g.out m) := by
  intro x hx
  induction hx with
  | init => intro m; simp [Trav.start, mem]
  | step hr hs ih =>
    cases hs with
    | env e s m => exact ih
    | handle s p rest =>
      simp only [Filter.cutting]
      generalize Build.lane hn (addr p.receiver) = i
      obtain ⟨sample, stop, -, -, -, ⟨e, -⟩ | ⟨e, -⟩⟩ := handle_cases (f := f) (g := g) (backwards := backwards) (del := del) i s p
      · rw [e]; exact ih
      · rw [e]
        have key : ∀ (o : N) (xs ys : List (L × N)), (xs ++ ys).Perm (s.mem.out o ++ s.mem.cut o) →
            ∀ m, (Function.update s.mem.out o xs m ++ Function.update s.mem.cut o ys m).Perm (g.out m) := by
          intro o xs ys h m
          by_cases hm : m = o
          · subst hm; rw [Function.update_self, Function.update_self]; exact h.trans (ih m)
          · rw [Function.update_of_ne hm, Function.update_of_ne hm]; exact ih m
        cases p with
        | cutForward o e =>
          simp only [act]
          split
          · rename_i he
            refine key o _ _ ?_
            exact List.perm_middle.trans ((List.perm_cons_erase he).symm.append_right (s.mem.cut o))
          · exact ih
        | cutBack o d b =>
          simp only [act]
          split
          · exact ih
          · refine key o _ _ ?_
            rw [← List.append_assoc]
            refine List.Perm.append_right _ ?_
            refine List.perm_append_comm.trans ?_
            have := List.filter_append_perm (fun x => decide (x = d)) (s.mem.out o)
            simpa using this
        | visit m c =>
          simp only [act]
          split
          · exact ih
          · split
            · exact key m _ _ (by simp)
            · refine key m _ _ ?_
              rw [← List.append_assoc]
              exact (pick_perm hl _).append_right _

theorem out_sub (hl : f.Lawful) {x} (hx : Bag.Reach (cutting f g backwards del addr hn) (.visit a none) (Trav.start (mem g)) x)
    {m : N} {e : L × N} (he : e ∈ x.1.mem.out m) : e ∈ g.out m :=
  (conserved hl _ hx m).mem_iff.1 (List.mem_append_left _ he)

/-- It ends. -/
theorem cutting_acc (hl : f.Lawful) (hdel : f.thinner = none ∨ ∀ i, del i = []) {ms : List N} (hms : ∀ m, Reaches (g.next backwards) a m → m ∈ ms) :
    ∀ x, Bag.Reach (cutting f g backwards del addr hn) (.visit a none) (Trav.start (mem g)) x →
      Acc (fun y x => Bag.Handles (cutting f g backwards del addr hn) x y) x := by
  refine Bag.acc_congr (T' := calm f g backwards del addr hn) rfl rfl (fun s p rest h => calm_handle (a := a) hdel s p rest fun _ => h) ?_
  refine (rover f g backwards del addr hn).acc (fun _ => rfl) (fun _ _ _ => rfl) rfl ms fun m hm => hms m ?_
  refine Relation.ReflTransGen.mono (p := fun x y => y ∈ g.next backwards x) (fun x y hxy => ?_) _ _ hm
  unfold arcs at hxy
  split at hxy
  · cases hxy
  · unfold Gr.next
    split at hxy
    · rename_i hb
      simpa [hb] using hxy
    · rename_i hb
      obtain ⟨e, he, rfl⟩ := List.mem_map.1 hxy
      simp only [hb, Bool.false_eq_true, if_false]
      exact List.mem_map.2 ⟨e, (pick_perm hl _).mem_iff.1 (List.mem_append_left _ he), rfl⟩

/-- At the end, if nothing went wrong, the nodes received are those that can be reached by edges retained from nodes that aren't deleted. -/
theorem cutting_visited (hdel : f.thinner = none ∨ ∀ i, del i = []) {y : State n (Pkt N L) (Trav.Job n N (Mem N L))}
    (hy : Net.Reach (cutting f g backwards del addr hn) (.visit a none) (Trav.start (mem g)) y) (hd : y.main = .done) (hf : Fine y.g) (m : N) :
    m ∈ y.g.seen (Build.lane hn (addr m)) ↔ Reaches (arcs f g backwards del addr hn) a m := by
  have hi := rover_reach hdel (Rover.done_bag hn hy hd)
  rw [← Rover.visited_iff hi hf, Rover.mem_visited]
  refine ⟨fun h => ⟨_, h⟩, fun ⟨i, h⟩ => ?_⟩
  have := hi.home i m h
  have e : Build.lane hn (addr m) = i := this
  rw [e]; exact h

/-- And they have the edges retained that don't lead to deleted nodes. -/
theorem cutting_done (hdel : f.thinner = none ∨ ∀ i, del i = []) {y : State n (Pkt N L) (Trav.Job n N (Mem N L))}
    (hy : Net.Reach (cutting f g false del addr hn) (.visit a none) (Trav.start (mem g)) y) (hd : y.main = .done) (hf : Fine y.g) {m : N}
    (hm : m ∈ y.g.seen (Build.lane hn (addr m))) (hnd : ¬ Dead del addr hn m) :
    (y.g.mem.out m).Perm ((pick f g m (g.out m)).1.filter fun e => decide (¬ Dead del addr hn e.2)) := by
  obtain ⟨h, -⟩ := fwd_reach hdel _ (Rover.done_bag hn hy hd)
  rw [List.perm_iff_count]
  intro e
  by_cases he : Dead del addr hn e.2
  · have h1 := (h.owed m hm hnd e he).2 hf
    rw [h1, load_zero, eq_comm, List.count_eq_zero]
    intro h2
    have := (List.mem_filter.1 h2).2
    simp at this
    exact this he
  · rw [h.alive m hm hnd e he, List.count_filter]
    simpa using he

end Filter

end Cru
