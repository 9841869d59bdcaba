import Verif.Proofs.Local

/-! # Properties C112: what callbacks get -/

namespace Cru.Local

variable {A : Type}

/-- Every place is one of those where the attribute can be got, one of those where it can't, or in the thread of the caller, and
all those where it can be got except for the reduction of the workers' results can also poll for killing. -/
theorem C112_places (c : Site) :
    (c ∈ deprived ∧ ∃ w o, c.place = some (w, o) ∧ w.settings = []) ∨ (c ∈ inCaller ∧ c.place = none) ∨
    (c ∉ deprived ∧ c ∉ inCaller ∧
      ∃ w o, c.place = some (w, o) ∧ Setting.store ∈ w.settings ∧ (c ≠ .fusion → Setting.kill ∈ w.settings)) := by
  cases c <;>
  first
  | exact .inl ⟨by decide, _, _, rfl, rfl⟩
  | exact .inr (.inl ⟨by decide, rfl⟩)
  | exact .inr (.inr ⟨by decide, by decide, _, _, rfl, by decide, by decide⟩)

/-- When a function of the library was called for a graph, a callback invoked for that call gets the attribute the graph had at that
time, whatever else happens at the same time or has happened since, unless it is one of those invoked at an exceptional place. -/
theorem C112_attribute {a : Nat → Option A} {s₀ s₁ s : Sys A} {es es' : List (Event A)} {t₀ t j g : Nat} {c : Site}
    (h₀ : Runs (init a) es s₀) (hc : Step s₀ (.call t₀ j g) s₁) (h : Runs s₁ es' s) (hi : Inside s t j c) (hd : c ∉ deprived)
    (hm : c ∉ inCaller) : get s t = s₀.graphs g := by
  have hv : Inv s := runs_inv (step_inv (runs_inv (init_inv a) h₀) hc) h
  obtain ⟨w, o, hp, hs, -⟩ : ∃ w o, c.place = some (w, o) ∧ Setting.store ∈ w.settings ∧ (c ≠ .fusion → Setting.kill ∈ w.settings) := by
    rcases C112_places c with ⟨h, _⟩ | ⟨h, _⟩ | ⟨_, _, h⟩
    · exact (hd h).elim
    · exact (hm h).elim
    · exact h
  obtain ⟨th, ht, hw, hf, ho⟩ := inside_place hv hi hp
  obtain ⟨b, hb, he⟩ := inside_values hv ht hw (by rw [hf]; simp)
  cases hc with
  | call _ _ _ th₀ ht₀ hw₀ hj₀ =>
    obtain ⟨b', h1, h2, -⟩ := runs_store h (j := j) (b := ⟨s₀.graphs g, false, t₀, th₀.frames.length⟩) (by simp [Sys.post])
    rw [hb] at h1
    cases h1
    simp [get, ht, he, idled_store, stored_store, if_pos hs, h2]

/-- At the other places in workers' threads, which are the labeler of `cru_composed`, the edge operator and pruner of `cru_merged`, vertex
properties, and the comparison of vertices to an initial vertex or by `cru_deduplicated`, callbacks get no attribute, can't poll for
killing, and can't connect or stretch. -/
theorem C112_deprived {a : Nat → Option A} {s : Sys A} {es : List (Event A)} {t j : Nat} {c : Site} (h : Runs (init a) es s)
    (hi : Inside s t j c) (hd : c ∈ deprived) :
    get s t = none ∧ polled s t = false ∧ connectable s t = false ∧ stretchable s t = false := by
  have hv : Inv s := runs_inv (init_inv a) h
  obtain ⟨w, o, hp, hs⟩ : ∃ w o, c.place = some (w, o) ∧ w.settings = [] := by
    rcases C112_places c with ⟨_, h⟩ | ⟨h, _⟩ | ⟨h, _⟩
    · exact h
    · exfalso; revert hd h; cases c <;> decide
    · exact (h hd).elim
  obtain ⟨th, ht, hw, hf, ho⟩ := inside_place hv hi hp
  obtain ⟨b, hb, he⟩ := inside_values hv ht hw (by rw [hf]; simp)
  have hz : th.values = fresh := by
    rw [he, hs]
    unfold idled
    split_ifs <;> rfl
  simp [get, polled, connectable, stretchable, ht, hz, fresh]

/-- A callback polling for killing finds out whether its job has been killed during its present task, unless it is one of those
invoked at an exceptional place. -/
theorem C112_polled {a : Nat → Option A} {s₀ s₁ s : Sys A} {es es' : List (Event A)} {t₀ t j g : Nat} {c : Site}
    (h₀ : Runs (init a) es s₀) (hc : Step s₀ (.call t₀ j g) s₁) (h : Runs s₁ es' s) (hi : Inside s t j c) (hd : c ∉ deprived)
    (hm : c ∉ inCaller) (hf : c ≠ .fusion) : polled s t = killedIn j es' false := by
  have hv : Inv s := runs_inv (step_inv (runs_inv (init_inv a) h₀) hc) h
  obtain ⟨w, o, hp, -, hs⟩ : ∃ w o, c.place = some (w, o) ∧ Setting.store ∈ w.settings ∧ (c ≠ .fusion → Setting.kill ∈ w.settings) := by
    rcases C112_places c with ⟨h, _⟩ | ⟨h, _⟩ | ⟨_, _, h⟩
    · exact (hd h).elim
    · exact (hm h).elim
    · exact h
  obtain ⟨th, ht, hw, hfr, ho⟩ := inside_place hv hi hp
  obtain ⟨b, hb, he⟩ := inside_values hv ht hw (by rw [hfr]; simp)
  cases hc with
  | call _ _ _ th₀ ht₀ hw₀ hj₀ =>
    obtain ⟨b', h1, h2, h3⟩ := runs_store h (j := j) (b := ⟨s₀.graphs g, false, t₀, th₀.frames.length⟩) (by simp [Sys.post])
    have h1' := h1
    rw [hb] at h1'
    cases h1'
    simp [polled, ht, he, idled_kill, stored_kill, if_pos (hs hf), hb, h3]

/-- In particular, a callback finds out if its job is killed while it's in progress. -/
theorem C112_polled_during {a : Nat → Option A} {s₀ s : Sys A} {es es' : List (Event A)} {t j : Nat} {c c' : Site}
    (h₀ : Runs (init a) es s₀) (h : Runs s₀ es' s) (hi : Inside s₀ t j c) (hi' : Inside s t j c') (hd : c' ∉ deprived)
    (hm : c' ∉ inCaller) (hf : c' ≠ .fusion) (hx : Event.exit t ∉ es') (hk : Event.kill j ∈ es') : polled s t = true := by
  have hv : Inv s := runs_inv (runs_inv (init_inv a) h₀) h
  obtain ⟨w, o, hp, -, hs⟩ : ∃ w o, c'.place = some (w, o) ∧ Setting.store ∈ w.settings ∧
      (c' ≠ .fusion → Setting.kill ∈ w.settings) := by
    rcases C112_places c' with ⟨h, _⟩ | ⟨h, _⟩ | ⟨_, _, h⟩
    · exact (hd h).elim
    · exact (hm h).elim
    · exact h
  obtain ⟨th', ht', hw', hfr, ho⟩ := inside_place hv hi' hp
  obtain ⟨th, ht, hh⟩ := hi
  obtain ⟨th'', h1, h2⟩ := runs_work h ht hx
  have hw : th.work = some (w, j) := by
    rw [ht'] at h1
    cases h1
    rw [← h2, hw']
  have hne : th.frames ≠ [] := by intro he; rw [he] at hh; cases hh
  obtain ⟨b, hb, -⟩ := inside_values (runs_inv (init_inv a) h₀) ht hw hne
  obtain ⟨b', hb', he⟩ := inside_values hv ht' hw' (by rw [hfr]; simp)
  obtain ⟨b'', h3, -, h4⟩ := runs_store h hb
  rw [hb'] at h3
  cases h3
  have hr := (runs_working h ht hw hx).2
  simp [polled, ht', he, idled_kill, stored_kill, if_pos (hs hf), hb', h4, killedIn_true hr (.inr hk)]

/-- A callback invoked in the thread of the application gets no attribute and can't poll for killing. -/
theorem C112_caller {a : Nat → Option A} {s : Sys A} {es : List (Event A)} {t : Nat} {th : Thread A} (h : Runs (init a) es s)
    (ht : s.threads t = some th) (hw : th.work = none) :
    get s t = none ∧ polled s t = false ∧ connectable s t = false ∧ stretchable s t = false := by
  have hz := (runs_inv (init_inv a) h t th ht).user hw
  simp [get, polled, connectable, stretchable, ht, hz, fresh]

/-- `cru_connect` can be called during a build or a spread in a worker's thread and nowhere else. -/
theorem C112_connect {a : Nat → Option A} {s : Sys A} {es : List (Event A)} {t j : Nat} {c : Site} (h : Runs (init a) es s)
    (hi : Inside s t j c) (hm : c ∉ inCaller) :
    connectable s t = true ↔ c = .connector ∨ c = .buildEqual ∨ c = .spreadConnector ∨ c = .spreadEqual := by
  have hv : Inv s := runs_inv (init_inv a) h
  obtain ⟨w, o, hp⟩ : ∃ w o, c.place = some (w, o) := by
    cases hp : c.place with
    | none => exact (hm (by revert hp; cases c <;> decide)).elim
    | some x => exact ⟨x.1, x.2, rfl⟩
  obtain ⟨th, ht, hw, hf, ho⟩ := inside_place hv hi hp
  obtain ⟨b, hb, he⟩ := inside_values hv ht hw (by rw [hf]; simp)
  have hz : (s.threads t).bind (fun th => th.values.context) =
      (idled o (stored b.store j w.settings)).context := by rw [ht, ← ho, ← he]; rfl
  unfold connectable
  rw [hz]
  clear hz he hi
  revert hp
  cases c <;> intro hp <;> cases hp <;> simp [idled, stored, Work.settings, Values.set, fresh]

/-- `cru_stretch` can be called during a stretch in a worker's thread and nowhere else. -/
theorem C112_stretch {a : Nat → Option A} {s : Sys A} {es : List (Event A)} {t j : Nat} {c : Site} (h : Runs (init a) es s)
    (hi : Inside s t j c) (hm : c ∉ inCaller) : stretchable s t = true ↔ c = .expander ∨ c = .stretchEqual := by
  have hv : Inv s := runs_inv (init_inv a) h
  obtain ⟨w, o, hp⟩ : ∃ w o, c.place = some (w, o) := by
    cases hp : c.place with
    | none => exact (hm (by revert hp; cases c <;> decide)).elim
    | some x => exact ⟨x.1, x.2, rfl⟩
  obtain ⟨th, ht, hw, hf, ho⟩ := inside_place hv hi hp
  obtain ⟨b, hb, he⟩ := inside_values hv ht hw (by rw [hf]; simp)
  have hz : (s.threads t).bind (fun th => th.values.context) =
      (idled o (stored b.store j w.settings)).context := by rw [ht, ← ho, ← he]; rfl
  unfold stretchable
  rw [hz]
  clear hz he hi
  revert hp
  cases c <;> intro hp <;> cases hp <;> simp [idled, stored, Work.settings, Values.set, fresh]

/-- A callback invoked in the thread of the caller when the caller is itself a callback gets the attribute of the latter's graph
instead of that of its own. -/
theorem C112_nested {a : Nat → Option A} {s₀ s₁ s : Sys A} {es es' : List (Event A)} {t₀ t j j' g' : Nat} {c c' : Site} {th : Thread A}
    (h₀ : Runs (init a) es s₀) (hc : Step s₀ (.call t₀ j' g') s₁) (h : Runs s₁ es' s) (ht : s.threads t = some th)
    (_hi : th.frames.head? = some (j, c)) (ho : th.frames.getLast? = some (j', c')) (hd : c' ∉ deprived) (hm : c' ∉ inCaller) :
    get s t = s₀.graphs g' := by
  have hv : Inv s := runs_inv (step_inv (runs_inv (init_inv a) h₀) hc) h
  obtain ⟨w, o, hp, hs, -⟩ : ∃ w o, c'.place = some (w, o) ∧ Setting.store ∈ w.settings ∧
      (c' ≠ .fusion → Setting.kill ∈ w.settings) := by
    rcases C112_places c' with ⟨h, _⟩ | ⟨h, _⟩ | ⟨_, _, h⟩
    · exact (hd h).elim
    · exact (hm h).elim
    · exact h
  have hne : th.frames ≠ [] := by intro he; rw [he] at ho; cases ho
  cases hwk : th.work with
  | none =>
    have := (hv t th ht).inner (j', c') (by rw [if_pos hwk]; exact List.mem_of_getLast? ho)
    rw [hp] at this; cases this
  | some x =>
    obtain ⟨w', i⟩ := x
    obtain ⟨_, _, _, _, _, _, _, e5⟩ := (hv t th ht).task w' i hwk
    obtain ⟨e6, e7⟩ := e5 _ ho
    rw [hp] at e7
    cases e7
    cases e6
    obtain ⟨b, hb, he⟩ := inside_values hv ht hwk hne
    cases hc with
    | call _ _ _ th₀ ht₀ hw₀ hj₀ =>
      obtain ⟨b', h1, h2, -⟩ := runs_store h (j := j') (b := ⟨s₀.graphs g', false, t₀, th₀.frames.length⟩) (by simp [Sys.post])
      rw [hb] at h1
      cases h1
      simp [get, ht, he, idled_store, stored_store, if_pos hs, h2]

/-- Graph 0 has the attribute 7 when it is built by the application's thread 0; then it is changed and the job is killed while a
worker is running the connector. -/
def demo : List (Event Nat) :=
  [.start 1 .building 0, .setting 1, .setting 1, .setting 1, .enter 1 0 .connector, .set 0 (some 8), .kill 0]

/-- The hypotheses of `C112_attribute`, `C112_polled`, `C112_connect` are met: the connector gets 7, finds that it has been killed,
and can connect. -/
example : ∃ s₀ s₁ s : Sys Nat, Runs (init fun _ => some 7) [.user 0] s₀ ∧ Step s₀ (.call 0 0 0) s₁ ∧ Runs s₁ demo s ∧
    Inside s 1 0 .connector ∧ get s 1 = some 7 ∧ polled s 1 = true ∧ connectable s 1 = true ∧ get s 0 = none := by
  refine ⟨_, _, _, execs_sound rfl, exec_sound rfl, execs_sound rfl, ⟨_, rfl, rfl⟩, ?_, ?_, ?_, ?_⟩ <;> decide +kernel

/-- Those of `C112_polled_during`: the job is killed after the callback is invoked. -/
example : ∃ s₀ s : Sys Nat, Runs (init fun _ => some 7)
      [.user 0, .call 0 0 0, .start 1 .mutating 0, .setting 1, .setting 1, .enter 1 0 .mutation] s₀ ∧
    Runs s₀ [.set 0 none, .kill 0] s ∧ Inside s₀ 1 0 .mutation ∧ Inside s 1 0 .mutation ∧ polled s₀ 1 = false ∧ polled s 1 = true := by
  refine ⟨_, _, execs_sound rfl, execs_sound rfl, ⟨_, rfl, rfl⟩, ⟨_, rfl, rfl⟩, ?_, ?_⟩ <;> decide +kernel

/-- Those of `C112_deprived`: a vertex property of `cru_split` gets nothing although its graph has an attribute and its job is
killed. -/
example : ∃ s : Sys Nat, Runs (init fun _ => some 7)
      [.user 0, .call 0 0 0, .start 1 .propertySetting 0, .enter 1 0 .property, .kill 0] s ∧
    Inside s 1 0 .property ∧ get s 1 = none ∧ polled s 1 = false := by
  refine ⟨_, execs_sound rfl, ⟨_, rfl, rfl⟩, ?_, ?_⟩ <;> decide +kernel

/-- Those of `C112_nested`: the connector for graph 0 with attribute 0 filters graph 5 with attribute 5, and the filter applied to the
base gets 0. -/
example : ∃ s₀ s₁ s : Sys Nat, Runs (init some) [.user 0] s₀ ∧ Step s₀ (.call 0 0 0) s₁ ∧
    Runs s₁ [.start 1 .building 0, .setting 1, .setting 1, .setting 1, .enter 1 0 .connector, .call 1 1 5, .enter 1 1 .baseFilter] s ∧
    Inside s 1 1 .baseFilter ∧ get s 1 = some 0 := by
  refine ⟨_, _, _, execs_sound rfl, exec_sound rfl, execs_sound rfl, ⟨_, rfl, rfl⟩, ?_⟩
  decide +kernel

end Cru.Local
