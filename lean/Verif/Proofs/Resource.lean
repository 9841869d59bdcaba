import Verif.Spec.Resource
import Mathlib.Algebra.Order.Group.Multiset

/-! # Proofs about `Model/Resource.lean` -/

namespace Cru.Resource

variable {sys : Nat → Int} {w w' : World}

theorem raise_ok (h : w.err = 0) (e : Int) : w.raise e = { w with err := e } := by simp [World.raise, h]

theorem malloc_ok (h : sys w.clock = 0) :
    malloc sys w = (some w.clock, { w with clock := w.clock + 1, live := ⟨w.clock, .memory⟩ ::ₘ w.live }) := by
  rw [malloc, if_pos h]

theorem malloc_no (h : sys w.clock ≠ 0) (he : w.err = 0) :
    malloc sys w = (none, { w with clock := w.clock + 1, err := 12 }) := by
  rw [malloc, if_neg h]; simp [World.raise, he]

theorem setup_ok {k : Kind} {code : Int → Int} {b : Nat} (h : sys w.clock = 0) (hb : Res.mk b .memory ∈ w.live) :
    setup sys k code b w = (0, { w with clock := w.clock + 1, live := ⟨b, k⟩ ::ₘ w.live }) := by
  simp [setup, h, hb]

theorem setup_no {k : Kind} {code : Int → Int} {b : Nat} (h : sys w.clock ≠ 0) (hb : Res.mk b .memory ∈ w.live) (he : w.err = 0) :
    setup sys k code b w = (sys w.clock, { w with clock := w.clock + 1, err := code (sys w.clock) }) := by
  simp [setup, h, hb, World.raise, he]

/-- Each lock or condition comes before the block it's in. -/
def Ordered : List Res → Prop
  | [] => True
  | x :: l => (x.kind = .memory ∨ Res.mk x.block .memory ∈ l) ∧ Ordered l

theorem release_of {x : Res} {m : Multiset Res} (h : w.live = x ::ₘ m) (hb : x.kind = .memory ∨ Res.mk x.block .memory ∈ m) :
    release x w = { w with live := m } := by
  have h1 : x ∈ w.live := by rw [h]; exact Multiset.mem_cons_self _ _
  have h2 : Res.mk x.block .memory ∈ w.live := by
    rcases hb with hb | hb
    · obtain ⟨b, k⟩ := x; subst hb; exact h1
    · rw [h]; exact Multiset.mem_cons_of_mem hb
  rw [release, if_pos ⟨h1, h2⟩, h, Multiset.erase_cons_head]

/-- Release all of a list. -/
def releases (l : List Res) (w : World) : World := l.foldl (fun w x => release x w) w

theorem releases_cons (x : Res) (l : List Res) (w : World) : releases (x :: l) w = releases l (release x w) := rfl

theorem releases_append (l l' : List Res) (w : World) : releases (l ++ l') w = releases l' (releases l w) := List.foldl_append ..

theorem releases_of {l : List Res} (ho : Ordered l) : ∀ {w : World} {m : Multiset Res}, w.live = (l : Multiset Res) + m →
    releases l w = { w with live := m } := by
  induction l with
  | nil => intro w m h; cases w; simp_all [releases]
  | cons x l ih =>
    intro w m h
    rw [releases_cons, release_of (m := (l : Multiset Res) + m) (by rw [h, ← Multiset.cons_coe, Multiset.cons_add]), ih ho.2 rfl]
    rcases ho.1 with h | h
    · exact .inl h
    · exact .inr (Multiset.mem_add.2 (.inl h))

theorem ordered_append {l l' : List Res} (h : Ordered l) (h' : Ordered l') : Ordered (l ++ l') := by
  induction l with
  | nil => exact h'
  | cons x l ih =>
    refine ⟨h.1.imp_right fun h => List.mem_append_left _ h, ih h.2⟩

theorem verdict_append (sys : Nat → Int) (t : Nat) (l l' : List (Int → Int)) (hl : ∀ c ∈ l, ∀ e, e ≠ 0 → c e ≠ 0) :
    verdict sys t (l ++ l') = if verdict sys t l = 0 then verdict sys (t + l.length) l' else verdict sys t l := by
  induction l generalizing t with
  | nil => simp [verdict]
  | cons c l ih =>
    rw [List.cons_append, verdict, verdict]
    by_cases h : sys t = 0
    · rw [if_pos h, if_pos h, ih _ fun c hc => hl c (List.mem_cons_of_mem _ hc)]
      simp [Nat.add_assoc, Nat.add_comm 1]
    · rw [if_neg h, if_neg h, if_neg (hl c List.mem_cons_self _ h)]

theorem mutexCode_ne {e : Int} (h : e ≠ 0) : mutexCode e ≠ 0 := by
  unfold mutexCode; split_ifs <;> first | exact h | decide

theorem condCode_ne {e : Int} (h : e ≠ 0) : condCode e ≠ 0 := by
  unfold condCode; split_ifs <;> first | exact h | decide

theorem mutexInit_eq (sys : Nat → Int) : mutexInit sys = setup sys .mutex mutexCode := by
  unfold mutexInit; congr 1; funext e; unfold mutexCode; simp only [List.mem_cons, List.not_mem_nil, or_false]
  split_ifs <;> simp_all

theorem condInit_eq (sys : Nat → Int) : condInit sys = setup sys .cond condCode := by
  unfold condInit; congr 1; funext e; unfold condCode; simp only [List.mem_cons, List.not_mem_nil, or_false]
  split_ifs <;> simp_all

theorem rwlockInit_eq (sys : Nat → Int) : rwlockInit sys 1315 = setup sys .rwlock rwlockCode := rfl

/-- Something was made that owns `o` at the cost of the requests `l`, or nothing was and the error is that of the first request
refused. -/
def Made (sys : Nat → Int) (l : List (Int → Int)) {A : Type} (o : A → Multiset Res) (P : A → Prop) (w : World) (x : Option A × World) : Prop :=
  (∃ a w₁, x = (some a, w₁) ∧ P a ∧ verdict sys w.clock l = 0 ∧ w₁.clock = w.clock + l.length ∧ w₁.live = o a + w.live ∧
    w₁.err = 0 ∧ w₁.wrong = w.wrong) ∨
  ∃ w₁, x = (none, w₁) ∧ verdict sys w.clock l ≠ 0 ∧ w₁.err = verdict sys w.clock l ∧ w₁.live = w.live ∧ w₁.wrong = w.wrong

theorem malloc_made (he : w.err = 0) :
    Made sys [memoryCode] (fun b => {Res.mk b .memory}) (fun b => b = w.clock) w (malloc sys w) := by
  by_cases h : sys w.clock = 0
  · exact .inl ⟨_, _, malloc_ok h, rfl, by simp [verdict, h], rfl, by simp, he, rfl⟩
  · exact .inr ⟨_, malloc_no h he, by simp [verdict, h, memoryCode], by simp [verdict, h, memoryCode], rfl, rfl⟩

theorem setup_made {k : Kind} {code : Int → Int} {b : Nat} (hb : Res.mk b .memory ∈ w.live) (he : w.err = 0) :
    (∃ w₁, setup sys k code b w = (0, w₁) ∧ sys w.clock = 0 ∧ w₁.clock = w.clock + 1 ∧ w₁.live = ⟨b, k⟩ ::ₘ w.live ∧ w₁.err = 0 ∧
      w₁.wrong = w.wrong) ∨
    ∃ e w₁, setup sys k code b w = (e, w₁) ∧ e ≠ 0 ∧ sys w.clock ≠ 0 ∧ w₁.err = code (sys w.clock) ∧ w₁.live = w.live ∧ w₁.wrong = w.wrong := by
  by_cases h : sys w.clock = 0
  · exact .inl ⟨_, setup_ok h hb, h, rfl, rfl, he, rfl⟩
  · exact .inr ⟨_, _, setup_no h hb he, h, h, rfl, rfl, rfl⟩

theorem podOf_made {a : Nat} (ha : a ≠ 0) (he : w.err = 0) :
    Made sys [memoryCode, memoryCode] Pod.owns (fun p => p.arity = a) w (podOf sys a w) := by
  rw [podOf, if_neg ha]
  rcases malloc_made (sys := sys) he with ⟨d, w₁, h, hd, hv, hc, hl, he₁, hw⟩ | ⟨w₁, h, hv, he₁, hl, hw⟩ <;> rw [h] <;> dsimp only
  · have hs : sys w.clock = 0 := by by_contra hn; simp [verdict, hn, memoryCode] at hv
    rcases malloc_made (sys := sys) he₁ with ⟨p, w₂, h, hp, hv', hc', hl', he₂, hw'⟩ | ⟨w₂, h, hv', he₂, hl', hw'⟩ <;> rw [h] <;> dsimp only
    · refine .inl ⟨_, _, rfl, rfl, ?_, by simp [hc', hc], ?_, he₂, hw'.trans hw⟩
      · rw [hc] at hv'; simpa [verdict, hs] using hv'
      · rw [hl', hl, ← add_assoc]; rfl
    · rw [hc] at hv' he₂
      rw [free, release_of (m := w.live) (by rw [hl', hl]; rfl) (.inl rfl)]
      refine .inr ⟨_, rfl, ?_, ?_, rfl, hw'.trans hw⟩ <;> simp_all [verdict]
  · refine .inr ⟨_, rfl, ?_, ?_, hl, hw⟩ <;> simp_all [verdict, memoryCode]

/-- The requests made for a port. -/
abbrev portRequests : List (Int → Int) := [memoryCode, mutexCode, condCode, rwlockCode, memoryCode, memoryCode]

theorem newPort_made {o n : Nat} (ho : o < n) (he : w.err = 0) :
    Made sys portRequests Port.owns (fun p => p.own = o ∧ p.peers.arity = n) w (newPort sys o n w) := by
  rw [newPort, if_neg (by omega), mutexInit_eq, condInit_eq, rwlockInit_eq]
  rcases malloc_made (sys := sys) he with ⟨p, w₁, h, -, hv, hc₁, hl₁, he₁, hw₁⟩ | ⟨w₁, h, hv, he₁, hl, hw⟩ <;> rw [h] <;> dsimp only
  swap
  · have hs : sys w.clock ≠ 0 := by intro hn; simp [verdict, hn] at hv
    refine .inr ⟨_, rfl, ?_, ?_, hl, hw⟩ <;> simp_all [verdict, memoryCode]
  have hs₀ : sys w.clock = 0 := by by_contra hn; simp [verdict, hn, memoryCode] at hv
  have hb₁ : Res.mk p .memory ∈ w₁.live := by rw [hl₁]; simp
  rcases setup_made (sys := sys) (k := .mutex) (code := mutexCode) hb₁ he₁ with ⟨w₂, h, hs₁, hc₂, hl₂, he₂, hw₂⟩ | ⟨e, w₂, h, hn, hs₁, he₂, hl₂, hw₂⟩ <;>
    rw [h] <;> dsimp only
  swap
  · rw [if_pos hn, free, release_of (m := w.live) (by rw [hl₂, hl₁]; rfl) (.inl rfl)]
    rw [hc₁] at hs₁ he₂
    have := mutexCode_ne hs₁
    refine .inr ⟨_, rfl, ?_, ?_, rfl, hw₂.trans hw₁⟩ <;> simp_all [verdict]
  rw [if_neg (by simp)]
  have hb₂ : Res.mk p .memory ∈ w₂.live := by rw [hl₂]; exact Multiset.mem_cons_of_mem hb₁
  rcases setup_made (sys := sys) (k := .cond) (code := condCode) hb₂ he₂ with ⟨w₃, h, hs₂, hc₃, hl₃, he₃, hw₃⟩ | ⟨e, w₃, h, hn, hs₂, he₃, hl₃, hw₃⟩ <;>
    rw [h] <;> dsimp only
  swap
  · rw [if_pos hn]
    have := releases_of (l := [⟨p, .mutex⟩, ⟨p, .memory⟩]) (w := w₃) (m := w.live) (by simp [Ordered]) (by rw [hl₃, hl₂, hl₁]; simp [← Multiset.cons_coe])
    rw [show free p (release ⟨p, .mutex⟩ w₃) = _ from this]
    rw [hc₁] at hs₁ hc₂; rw [hc₂] at hs₂ he₃
    have := condCode_ne hs₂
    refine .inr ⟨_, rfl, ?_, ?_, rfl, hw₃.trans (hw₂.trans hw₁)⟩ <;> simp_all [verdict]
  rw [if_neg (by simp)]
  have hb₃ : Res.mk p .memory ∈ w₃.live := by rw [hl₃]; exact Multiset.mem_cons_of_mem hb₂
  rcases setup_made (sys := sys) (k := .rwlock) (code := rwlockCode) hb₃ he₃ with ⟨w₄, h, hs₃, hc₄, hl₄, he₄, hw₄⟩ | ⟨e, w₄, h, hn, hs₃, he₄, hl₄, hw₄⟩ <;>
    rw [h] <;> dsimp only
  swap
  · rw [if_pos hn]
    have := releases_of (l := [⟨p, .cond⟩, ⟨p, .mutex⟩, ⟨p, .memory⟩]) (w := w₄) (m := w.live) (by simp [Ordered])
      (by rw [hl₄, hl₃, hl₂, hl₁]; simp [← Multiset.cons_coe])
    rw [show free p (release ⟨p, .mutex⟩ (release ⟨p, .cond⟩ w₄)) = _ from this]
    rw [hc₁] at hs₁ hc₂; rw [hc₂] at hs₂ hc₃; rw [hc₃] at hs₃ he₄
    refine .inr ⟨_, rfl, ?_, ?_, rfl, hw₄.trans (hw₃.trans (hw₂.trans hw₁))⟩ <;> simp_all [verdict, rwlockCode]
  rw [if_neg (by simp)]
  rw [hc₁] at hs₁ hc₂; rw [hc₂] at hs₂ hc₃; rw [hc₃] at hs₃ hc₄
  have hw : w₄.wrong = w.wrong := hw₄.trans (hw₃.trans (hw₂.trans hw₁))
  have hv4 : verdict sys w.clock portRequests = verdict sys w₄.clock [memoryCode, memoryCode] := by
    simp [verdict, portRequests, hs₀, hs₁, hs₂, hs₃, hc₄, List.length] at hc₄ ⊢
    simp_all [Nat.add_assoc]
  have hl : w₄.live = ↑[Res.mk p .rwlock, ⟨p, .cond⟩, ⟨p, .mutex⟩, ⟨p, .memory⟩] + w.live := by
    rw [hl₄, hl₃, hl₂, hl₁]; simp [← Multiset.cons_coe]
  rcases podOf_made (sys := sys) (a := n) (by omega) he₄ with ⟨d, w₅, h, hd, hv', hc₅, hl₅, he₅, hw₅⟩ | ⟨w₅, h, hv', he₅, hl₅, hw₅⟩ <;> rw [h] <;> dsimp only
  · refine .inl ⟨_, _, rfl, ⟨rfl, hd⟩, hv4.trans hv', by simp_all, ?_, he₅, hw₅.trans hw⟩
    rw [hl₅, hl, ← add_assoc]; congr 1
    rw [Port.owns, add_comm]; congr 1
    exact Multiset.coe_eq_coe.2 (List.reverse_perm [Res.mk p .memory, ⟨p, .mutex⟩, ⟨p, .cond⟩, ⟨p, .rwlock⟩])
  · have := releases_of (l := [⟨p, .rwlock⟩, ⟨p, .cond⟩, ⟨p, .mutex⟩, ⟨p, .memory⟩]) (w := w₅) (m := w.live) (by simp [Ordered]) (hl₅.trans hl)
    rw [show free p (release ⟨p, .mutex⟩ (release ⟨p, .cond⟩ (release ⟨p, .rwlock⟩ w₅))) = _ from this]
    exact .inr ⟨_, rfl, hv4 ▸ hv', by rw [hv4, he₅], rfl, hw₅.trans hw⟩

theorem newPorts_made {n : Nat} : ∀ (k o : Nat) (w : World), o + k = n → w.err = 0 →
    ∃ ps b w₁, newPorts sys n o k w = (ps, b, w₁) ∧ w₁.live = (ps.map Port.owns).sum + w.live ∧ w₁.wrong = w.wrong ∧ ps.length ≤ k ∧
      (∀ i (h : i < ps.length), ps[i].own = o + i ∧ ps[i].peers.arity = n) ∧
      ((b = true ∧ ps.length = k ∧ w₁.err = 0 ∧ verdict sys w.clock (List.replicate k portRequests).flatten = 0 ∧
          w₁.clock = w.clock + 6 * k) ∨
        (b = false ∧ w₁.err = verdict sys w.clock (List.replicate k portRequests).flatten ∧ w₁.err ≠ 0))
  | 0, o, w, _, he => ⟨[], true, w, rfl, by simp, rfl, by simp, by simp, .inl ⟨rfl, rfl, he, rfl, rfl⟩⟩
  | k + 1, o, w, ho, he => by
    have hne : ∀ c ∈ portRequests, ∀ e, e ≠ 0 → c e ≠ 0 := by
      intro c hc e h
      simp only [portRequests, List.mem_cons, List.not_mem_nil, or_false] at hc
      rcases hc with rfl | rfl | rfl | rfl | rfl | rfl <;>
        first | exact mutexCode_ne h | exact condCode_ne h | exact by decide | (show (12:Int) ≠ 0; decide) | (show (-1315:Int) ≠ 0; decide)
    rw [newPorts, List.replicate_succ, List.flatten_cons, verdict_append _ _ _ _ hne]
    rcases newPort_made (sys := sys) (n := n) (o := o) (by omega) he with ⟨p, w₁, h, ⟨hp, hp'⟩, hv, hc, hl, he₁, hw⟩ | ⟨w₁, h, hv, he₁, hl, hw⟩ <;> rw [h] <;> dsimp only
    · obtain ⟨ps, b, w₂, h₂, hl₂, hw₂, hk, hi, hr⟩ := newPorts_made (n := n) k (o + 1) w₁ (by omega) he₁
      rw [h₂]; dsimp only
      rw [if_pos hv, ← hc]
      refine ⟨_, b, w₂, rfl, ?_, hw₂.trans hw, by simpa using hk, ?_, ?_⟩
      · rw [hl₂, hl, List.map_cons, List.sum_cons, ← add_assoc, add_comm _ p.owns]
      · rintro (_ | i) h
        · exact ⟨by simpa using hp, hp'⟩
        · have := hi i (by simpa using h)
          simp only [List.getElem_cons_succ]
          exact ⟨by omega, this.2⟩
      · rcases hr with ⟨h, hk, he, hv, hc'⟩ | h
        · refine .inl ⟨h, by simpa using hk, he, hv, ?_⟩
          rw [hc', hc]; simp; omega
        · exact .inr h
    · rw [if_neg hv]
      exact ⟨[], false, w₁, rfl, by simpa using hl, hw, by simp, by simp, .inr ⟨rfl, he₁, he₁ ▸ hv⟩⟩

theorem release_err (x : Res) (w : World) (e : Int) : release x { w with err := e } = { release x w with err := e } := by
  unfold release; dsimp only; split_ifs <;> rfl

theorem err_release (x : Res) (w : World) : (release x w).err = w.err := by unfold release; split_ifs <;> rfl

theorem err_releases (l : List Res) (w : World) : (releases l w).err = w.err := by
  induction l generalizing w with
  | nil => rfl
  | cons x l ih => rw [releases_cons, ih, err_release]

/-- What's released in freeing a port. -/
def slotDown : Option Port → List Res
  | none => []
  | some p => [⟨p.id, .mutex⟩, ⟨p.id, .cond⟩, ⟨p.id, .rwlock⟩, ⟨p.peers.pod, .memory⟩, ⟨p.peers.id, .memory⟩, ⟨p.id, .memory⟩]

/-- What's released in freeing a router. -/
def routerDown (r : Router) : List Res :=
  (match r.threads with
    | none => []
    | some t => [⟨t, .memory⟩]) ++
  ((match r.ports with
    | none => []
    | some (a, ps) => ps.flatMap slotDown ++ [⟨a, .memory⟩]) ++ [⟨r.id, .mutex⟩, ⟨r.id, .cond⟩, ⟨r.id, .memory⟩])

theorem freePort_eq (p : Option Port) (w : World) : freePort p w = releases (slotDown p) w := by
  cases p
  · rfl
  · simp only [freePort, slotDown, releases_cons, freePod, free]; rfl

theorem foldl_freePort (ps : List (Option Port)) (w : World) :
    ps.foldl (fun w p => freePort p w) w = releases (ps.flatMap slotDown) w := by
  induction ps generalizing w with
  | nil => rfl
  | cons p ps ih => rw [List.foldl_cons, ih, freePort_eq, List.flatMap_cons, releases_append]

theorem raise_eq (w : World) (e : Int) : w.raise e = { w with err := firstOf [w.err, e] } := by
  simp only [World.raise, firstOf]; split_ifs <;> simp_all

theorem report_eq (st : Int) (k : Bool) (w : World) :
    report st k w = { w with err := firstOf [w.err, st, if k then -528 else 0] } := by
  unfold report
  rw [raise_eq]; dsimp only; rw [raise_eq]
  by_cases h1 : w.err = 0 <;> by_cases h2 : st = 0 <;> cases k <;> simp_all [firstOf]

theorem freeRouter_eq {r : Router} (hs : r.shared = 0) (w : World) :
    freeRouter r w = (none, { releases (routerDown r) w with err := firstOf [w.err, r.status, if r.killed then -528 else 0] }) := by
  rw [freeRouter, if_neg (by simp [hs]), routerDown, releases_append, releases_append, report_eq, free, release_err, err_release, err_release]
  have h1 : freeThreads r.threads w = releases (match r.threads with
    | none => []
    | some t => [⟨t, .memory⟩]) w := by rcases r.threads with _ | t <;> rfl
  have h2 : ∀ w, freePorts r.ports w = releases (match r.ports with
    | none => []
    | some (a, ps) => ps.flatMap slotDown ++ [⟨a, .memory⟩]) w := by
    intro w; rcases r.ports with _ | ⟨a, ps⟩
    · rfl
    · simp only [freePorts, foldl_freePort, releases_append]; rfl
  rw [h1, h2, err_releases, err_releases]; rfl

theorem slotDown_ordered (p : Option Port) : Ordered (slotDown p) := by cases p <;> simp [slotDown, Ordered]

theorem flatMap_ordered (ps : List (Option Port)) : Ordered (ps.flatMap slotDown) := by
  induction ps with
  | nil => trivial
  | cons p ps ih => exact ordered_append (slotDown_ordered p) ih

theorem routerDown_ordered (r : Router) : Ordered (routerDown r) := by
  refine ordered_append ?_ (ordered_append ?_ (by simp [Ordered]))
  · rcases r.threads with _ | t <;> simp [Ordered]
  · rcases r.ports with _ | ⟨a, ps⟩
    · trivial
    · exact ordered_append (flatMap_ordered ps) (by simp [Ordered])

theorem slotDown_owns (p : Option Port) : (slotDown p : Multiset Res) = slotOwns p := by
  rcases p with _ | ⟨b, o, q, d, n⟩
  · rfl
  · simp only [slotDown, slotOwns, Port.owns, Pod.owns]
    show (_ : Multiset Res) = ↑[Res.mk b .memory, ⟨b, .mutex⟩, ⟨b, .cond⟩, ⟨b, .rwlock⟩, ⟨q, .memory⟩, ⟨d, .memory⟩]
    rw [Multiset.coe_eq_coe, List.perm_iff_count]
    intro x
    simp only [List.count_cons, List.count_nil]
    omega

theorem flatMap_owns (ps : List (Option Port)) : (ps.flatMap slotDown : Multiset Res) = (ps.map slotOwns).sum := by
  induction ps with
  | nil => rfl
  | cons p ps ih => rw [List.flatMap_cons, ← Multiset.coe_add, ih, slotDown_owns]; rfl

theorem routerDown_owns (r : Router) : (routerDown r : Multiset Res) = r.owns := by
  have h : (↑[Res.mk r.id .mutex, ⟨r.id, .cond⟩, ⟨r.id, .memory⟩] : Multiset Res) = {⟨r.id, .memory⟩, ⟨r.id, .mutex⟩, ⟨r.id, .cond⟩} :=
    Multiset.coe_eq_coe.2 (List.perm_append_comm (l₁ := [Res.mk r.id .mutex, ⟨r.id, .cond⟩]) (l₂ := [⟨r.id, .memory⟩]))
  rw [routerDown, ← Multiset.coe_add, ← Multiset.coe_add, h, Router.owns]
  rcases r.threads with _ | t <;> rcases r.ports with _ | ⟨a, ps⟩ <;>
    simp only [Multiset.coe_nil, zero_add, add_zero, ← Multiset.coe_add, flatMap_owns, Multiset.coe_singleton]
  · rw [add_comm, add_comm _ {Res.mk a .memory}, Multiset.singleton_add]
  · rw [add_comm]
  · rw [← Multiset.singleton_add]
    simp only [add_comm, add_left_comm]

theorem freeRouter_of {r : Router} (hs : r.shared = 0) {m : Multiset Res} (h : w.live = r.owns + m) :
    freeRouter r w = (none, { w with live := m, err := firstOf [w.err, r.status, if r.killed then -528 else 0] }) := by
  rw [freeRouter_eq hs, releases_of (routerDown_ordered r) (m := m) (by rw [h, routerDown_owns])]

theorem freeRouter_shared {r : Router} (hs : r.shared ≠ 0) (w : World) :
    freeRouter r w = (some { r with shared := r.shared - 1 }, w) := by
  rw [freeRouter, if_pos hs]

theorem sum_slots (n : Nat) (ps : List Port) : ((slots n ps).map slotOwns).sum = (ps.map Port.owns).sum := by
  have h : ∀ k, (List.replicate k (0 : Multiset Res)).sum = 0 := by
    intro k
    induction k with
    | zero => rfl
    | succ k ih => rw [List.replicate_succ, List.sum_cons, ih]; rfl
  rw [slots, List.map_append, List.sum_append, List.map_replicate, List.map_map]
  show _ + (List.replicate _ (0 : Multiset Res)).sum = _
  rw [h, add_zero]; rfl

/-- A router is freed in the course of making one. -/
theorem abandon {r : Router} (hs : r.shared = 0) (ht : r.status = 0) (hk : r.killed = false) {m : Multiset Res} (h : w.live = r.owns + m) :
    (freeRouter r w).2 = { w with live := m } := by
  rw [freeRouter_of hs h]
  simp only [ht, hk, firstOf]
  by_cases h : w.err = 0 <;> simp [h]

theorem routerOf_made {nproc lanes : Nat} (hn : capped nproc lanes ≠ 0) (he : w.err = 0) :
    Made sys (requests (capped nproc lanes)) Router.owns
      (fun r => r.Complete (capped nproc lanes) ∧ r.shared = 0 ∧ r.status = 0 ∧ r.killed = false) w (routerOf sys nproc lanes w) := by
  unfold routerOf
  generalize capped nproc lanes = n at hn ⊢
  dsimp only
  rw [if_neg (by simp [he]), if_neg hn, mutexInit_eq, condInit_eq]
  rcases malloc_made (sys := sys) he with ⟨p, w₁, h, -, hv, hc₁, hl₁, he₁, hw₁⟩ | ⟨w₁, h, hv, he₁, hl, hw⟩ <;> rw [h] <;> dsimp only
  swap
  · have hs : sys w.clock ≠ 0 := by intro hn; simp [verdict, hn] at hv
    refine .inr ⟨_, rfl, ?_, ?_, hl, hw⟩ <;> simp_all [verdict, memoryCode, requests]
  have hs₀ : sys w.clock = 0 := by by_contra hn; simp [verdict, hn, memoryCode] at hv
  have hb₁ : Res.mk p .memory ∈ w₁.live := by rw [hl₁]; simp
  rcases setup_made (sys := sys) (k := .mutex) (code := mutexCode) hb₁ he₁ with ⟨w₂, h, hs₁, hc₂, hl₂, he₂, hw₂⟩ | ⟨e, w₂, h, hn, hs₁, he₂, hl₂, hw₂⟩ <;>
    rw [h] <;> dsimp only
  swap
  · rw [if_pos hn, free, release_of (m := w.live) (by rw [hl₂, hl₁]; rfl) (.inl rfl)]
    rw [hc₁] at hs₁ he₂
    have := mutexCode_ne hs₁
    refine .inr ⟨_, rfl, ?_, ?_, rfl, hw₂.trans hw₁⟩ <;> simp_all [verdict, requests]
  rw [if_neg (by simp)]
  have hb₂ : Res.mk p .memory ∈ w₂.live := by rw [hl₂]; exact Multiset.mem_cons_of_mem hb₁
  rcases setup_made (sys := sys) (k := .cond) (code := condCode) hb₂ he₂ with ⟨w₃, h, hs₂, hc₃, hl₃, he₃, hw₃⟩ | ⟨e, w₃, h, hn, hs₂, he₃, hl₃, hw₃⟩ <;>
    rw [h] <;> dsimp only
  swap
  · rw [if_pos hn]
    have := releases_of (l := [⟨p, .mutex⟩, ⟨p, .memory⟩]) (w := w₃) (m := w.live) (by simp [Ordered])
      (by rw [hl₃, hl₂, hl₁]; simp [← Multiset.cons_coe])
    rw [show free p (release ⟨p, .mutex⟩ w₃) = _ from this]
    rw [hc₁] at hs₁ hc₂; rw [hc₂] at hs₂ he₃
    have := condCode_ne hs₂
    refine .inr ⟨_, rfl, ?_, ?_, rfl, hw₃.trans (hw₂.trans hw₁)⟩ <;> simp_all [verdict, requests]
  rw [if_neg (by simp)]
  rw [hc₁] at hs₁ hc₂; rw [hc₂] at hs₂ hc₃
  have hl : w₃.live = {Res.mk p .memory, ⟨p, .mutex⟩, ⟨p, .cond⟩} + w.live := by
    rw [hl₃, hl₂, hl₁, ← Multiset.cons_add, ← Multiset.cons_add]; congr 1
    exact Multiset.coe_eq_coe.2 (List.reverse_perm [Res.mk p .memory, ⟨p, .mutex⟩, ⟨p, .cond⟩])
  have hw : w₃.wrong = w.wrong := hw₃.trans (hw₂.trans hw₁)
  rcases malloc_made (sys := sys) he₃ with ⟨t, w₄, h, -, hv₄, hc₄, hl₄, he₄, hw₄⟩ | ⟨w₄, h, hv₄, he₄, hl₄, hw₄⟩ <;> rw [h] <;> dsimp only
  swap
  · rw [abandon rfl rfl rfl (m := w.live) (by rw [hl₄, hl]; simp [Router.owns])]
    have hs : sys w₃.clock ≠ 0 := by intro hn; simp [verdict, hn] at hv₄
    rw [hc₃] at hs hv₄ he₄
    refine .inr ⟨_, rfl, ?_, ?_, rfl, hw₄.trans hw⟩ <;> simp_all [verdict, memoryCode, requests]
  have hs₃ : sys w₃.clock = 0 := by by_contra hn; simp [verdict, hn, memoryCode] at hv₄
  rw [hc₃] at hs₃ hc₄
  rcases malloc_made (sys := sys) he₄ with ⟨a, w₅, h, -, hv₅, hc₅, hl₅, he₅, hw₅⟩ | ⟨w₅, h, hv₅, he₅, hl₅, hw₅⟩ <;> rw [h] <;> dsimp only
  swap
  · rw [abandon rfl rfl rfl (m := w.live) (by
      rw [hl₅, hl₄, hl, Router.owns]; dsimp only; rw [add_zero, ← add_assoc, add_comm {Res.mk t .memory}])]
    have hs : sys w₄.clock ≠ 0 := by intro hn; simp [verdict, hn] at hv₅
    rw [hc₄] at hs hv₅ he₅
    refine .inr ⟨_, rfl, ?_, ?_, rfl, hw₅.trans (hw₄.trans hw)⟩ <;> simp_all [verdict, memoryCode, requests]
  have hs₄ : sys w₄.clock = 0 := by by_contra hn; simp [verdict, hn, memoryCode] at hv₅
  rw [hc₄] at hs₄ hc₅
  have hv : verdict sys w.clock (requests n) = verdict sys w₅.clock (List.replicate n portRequests).flatten := by
    rw [hc₅]; simp_all [verdict, requests]
  obtain ⟨ps, b, w₆, h₆, hl₆, hw₆, hk, hi, hr⟩ := newPorts_made (sys := sys) (n := n) n 0 w₅ (by omega) he₅
  have hlive : ∀ r : Router, r.id = p → r.threads = some t → r.ports = some (a, slots n ps) → w₆.live = r.owns + w.live := by
    intro r h1 h2 h3
    rw [hl₆, hl₅, hl₄, hl, Router.owns, h1, h2, h3]
    dsimp only
    rw [sum_slots, ← Multiset.singleton_add]
    simp only [add_assoc, add_comm, add_left_comm]
  have hwr : w₆.wrong = w.wrong := hw₆.trans (hw₅.trans (hw₄.trans hw))
  rw [h₆]
  rcases hr with ⟨rfl, hlen, he₆, hv₆, hc₆⟩ | ⟨rfl, he₆, hne⟩ <;> dsimp only
  · refine .inl ⟨_, _, rfl, ⟨⟨rfl, rfl, a, slots n ps, rfl, ?_, ?_⟩, rfl, rfl, rfl⟩, hv.trans hv₆, ?_, hlive _ rfl rfl rfl, he₆, hwr⟩
    · simp [slots, hlen]
    · intro i h
      have h' : i < ps.length := by simpa [slots, hlen] using h
      have := hi i h'
      refine ⟨ps[i], ?_, by omega, this.2⟩
      simp only [slots]
      rw [List.getElem_append_left (by simpa using h')]; simp
    · rw [hc₆, hc₅]
      simp only [requests, List.length_append, List.length_flatten, List.map_replicate, List.sum_replicate_nat]
      simp; omega
  · rw [abandon rfl rfl rfl (hlive _ rfl rfl rfl)]
    exact .inr ⟨_, rfl, by rw [hv, ← he₆]; exact hne, by rw [hv]; exact he₆, rfl, hwr⟩

theorem routerOf_any (sys : Nat → Int) (nproc lanes : Nat) (w : World) :
    (∃ r w₁, routerOf sys nproc lanes w = (some r, w₁) ∧ w.err = 0 ∧ w₁.err = 0 ∧ w₁.live = r.owns + w.live ∧ w₁.wrong = w.wrong ∧ r.shared = 0 ∧
      r.status = 0 ∧ r.killed = false) ∨
    ∃ w₁, routerOf sys nproc lanes w = (none, w₁) ∧ w₁.err ≠ 0 ∧ w₁.live = w.live ∧ w₁.wrong = w.wrong ∧ (w.err ≠ 0 → w₁.err = w.err) := by
  by_cases he : w.err = 0
  · by_cases hn : capped nproc lanes = 0
    · refine .inr ⟨w.raise (-1442), ?_, ?_, rfl, rfl, fun h => absurd he h⟩
      · unfold routerOf; dsimp only; rw [if_neg (by simp [he]), if_pos hn]
      · simp [World.raise, he]
    · rcases routerOf_made (sys := sys) (w := w) hn he with ⟨r, w₁, h, ⟨-, h1, h2, h3⟩, -, -, hl, he', hw⟩ | ⟨w₁, h, hv, he', hl, hw⟩
      · exact .inl ⟨r, w₁, h, he, he', hl, hw, h1, h2, h3⟩
      · exact .inr ⟨w₁, h, he' ▸ hv, hl, hw, fun h => absurd he h⟩
  · refine .inr ⟨w, ?_, he, rfl, rfl, fun _ => rfl⟩
    unfold routerOf; dsimp only; rw [if_pos he]

theorem owns_flags (r : Router) (n : Nat) (st : Int) (k : Bool) (sh : Nat) :
    Router.owns { r with lanes := n, status := st, killed := k, shared := sh } = r.owns := rfl

/-- The router and what's live as long as an operation goes on. -/
structure Going (m : Multiset Res) (b : Bool) (r : Router) (w : World) : Prop where
  shared : r.shared = 0
  live : w.live = r.owns + m
  wrong : w.wrong = b

theorem raise_live (w : World) (e : Int) : (w.raise e).live = w.live := rfl

theorem raise_wrong (w : World) (e : Int) : (w.raise e).wrong = w.wrong := rfl

theorem raise_zero {w : World} {e : Int} : (w.raise e).err = 0 ↔ w.err = 0 ∧ e = 0 := by
  unfold World.raise; dsimp only; split_ifs <;> simp_all

theorem raise_keep {w : World} (h : w.err ≠ 0) (e : Int) : (w.raise e).err = w.err := by simp [World.raise, h]

/-- A stage, and what's to be known about the errors: which of them come to light, and the kill flag that it leaves. -/
theorem perform_going {m : Multiset Res} {b : Bool} {nproc : Nat} (s : Stage) {r : Router} {w : World} (h : Going m b r w) :
    ∃ r' w', perform sys nproc s (some r) w = (some r', w') ∧ Going m b r' w' ∧
      (w'.err = 0 → w.err = 0 ∧ s.run.status = 0 ∧ s.run.dblx = 0 ∧ (s.own = false → s.run.killed = false)) ∧ (w.err ≠ 0 → w'.err = w.err) ∧
      r'.killed = (if s.own then s.run.killed else r.killed) ∧ (w'.err = 0 → r.status = 0 → r'.status = 0) := by
  obtain ⟨hs, hl, hw⟩ := h
  match s with
  | .shared x =>
    refine ⟨{ r with status := x.status, killed := x.killed }, (w.raise x.status).raise x.dblx, ?_, ⟨hs, hl, hw⟩, ?_, ?_, rfl, ?_⟩
    · simp only [perform, Option.map_some, launched]
      rw [freeRouter_shared (by simp [share])]
      simp only [share, reset, Nat.add_sub_cancel]
    · intro h
      rw [raise_zero, raise_zero] at h
      exact ⟨h.1.1, h.1.2, h.2, by simp [Stage.own]⟩
    · intro h; rw [raise_keep (by rw [raise_keep h]; exact h), raise_keep h]
    · intro h _
      rw [raise_zero, raise_zero] at h; exact h.1.2
  | .plain x =>
    refine ⟨{ reset r with status := x.status, killed := x.killed }, (w.raise x.status).raise x.dblx, rfl, ⟨hs, hl, hw⟩, ?_, ?_, rfl, ?_⟩
    · intro h
      rw [raise_zero, raise_zero] at h
      exact ⟨h.1.1, h.1.2, h.2, by simp [Stage.own]⟩
    · intro h; rw [raise_keep (by rw [raise_keep h]; exact h), raise_keep h]
    · intro h _
      rw [raise_zero, raise_zero] at h; exact h.1.2
  | .extra x =>
    simp only [perform]
    rcases routerOf_any sys nproc r.lanes w with ⟨z, w₁, hz, he, he₁, hl₁, hw₁, hsh, -, -⟩ | ⟨w₁, hz, he₁, hl₁, hw₁, hk⟩ <;> rw [hz]
    · dsimp only [launched]
      rw [freeRouter_of (m := w.live) (by exact hsh) (by exact hl₁)]
      dsimp only
      refine ⟨r, _, rfl, ⟨hs, hl, hw₁.trans hw⟩, ?_, fun h => absurd he h, rfl, fun _ h => h⟩
      rw [raise_zero]
      dsimp only
      rw [raise_zero]
      rintro ⟨⟨-, h2⟩, h3⟩
      have hd : x.dblx = 0 := by
        by_contra hd
        simp [firstOf, hd] at h3
      refine ⟨he, h2, hd, fun _ => ?_⟩
      show x.killed = false
      cases hx : x.killed
      · rfl
      · simp [firstOf, hx, h2, hd] at h3
    · exact ⟨r, w₁, rfl, ⟨hs, hl₁.trans hl, hw₁.trans hw⟩, fun h => absurd h he₁, hk, rfl, fun _ h => h⟩

theorem killedLast_cons (s : Stage) (l : List Stage) :
    killedLast (s :: l) = if l.any Stage.own then killedLast l else s.own && s.run.killed := by
  unfold killedLast
  by_cases h : l.any Stage.own = true
  · rw [if_pos h]
    have hne : l.filter Stage.own ≠ [] := by
      intro hn
      obtain ⟨x, hx, ho⟩ := List.any_eq_true.1 h
      exact List.filter_eq_nil_iff.1 hn x hx ho
    rw [List.filter_cons]
    split_ifs
    · rw [List.getLast?_cons_of_ne_nil hne]
    · rfl
  · rw [if_neg h]
    have hn : l.filter Stage.own = [] := by
      rw [List.filter_eq_nil_iff]
      intro x hx ho
      exact h (List.any_eq_true.2 ⟨x, hx, ho⟩)
    rw [List.filter_cons, hn]
    cases hs : s.own <;> simp

theorem stages_going {m : Multiset Res} {b : Bool} {nproc : Nat} : ∀ (l : List Stage) {r : Router} {w : World}, Going m b r w →
    ∃ r' w', l.foldl (fun x s => perform sys nproc s x.1 x.2) (some r, w) = (some r', w') ∧ Going m b r' w' ∧
      (w'.err = 0 → w.err = 0 ∧ ∀ s ∈ l, s.run.status = 0 ∧ s.run.dblx = 0 ∧ (s.own = false → s.run.killed = false)) ∧ (w.err ≠ 0 → w'.err = w.err) ∧
      r'.killed = (if l.any Stage.own then killedLast l else r.killed) ∧ (w'.err = 0 → r.status = 0 → r'.status = 0)
  | [], r, w, h => ⟨r, w, rfl, h, fun h => ⟨h, by simp⟩, fun _ => rfl, by simp, fun _ h => h⟩
  | s :: l, r, w, h => by
    obtain ⟨r₁, w₁, h₁, hg, he, hk, hq, ht⟩ := perform_going (sys := sys) (nproc := nproc) s h
    obtain ⟨r₂, w₂, h₂, hg₂, he₂, hk₂, hq₂, ht₂⟩ := stages_going (nproc := nproc) l hg
    refine ⟨r₂, w₂, by rw [List.foldl_cons, h₁]; exact h₂, hg₂, ?_, ?_, ?_, ?_⟩
    · intro h
      obtain ⟨h1, h2⟩ := he₂ h
      obtain ⟨h3, h4⟩ := he h1
      exact ⟨h3, List.forall_mem_cons.2 ⟨h4, h2⟩⟩
    · intro h
      rw [hk₂ (by rw [hk h]; exact h), hk h]
    · rw [hq₂, hq]
      rw [List.any_cons, killedLast_cons]
      cases l.any Stage.own <;> cases s.own <;> simp
    · intro h hs
      exact ht₂ h (ht (he₂ h).1 hs)

end Cru.Resource
