import Verif.Model.Forge
import Verif.Spec.Words
import Verif.Props.Fab

/-! # C166: fabrication with functions left out -/

namespace Cru.Fab

open Infer Net

variable {n : Nat} {N V L : Type} [DecidableEq N] {g : Gr N V L} {u : Env V L} {v e : Option Nat} {sg s : Sig} {addr : N → Nat} {hn : 0 < n}
  {r : Except Int (Gr (Spawn.Id n) (Option V) L)}

/-- A fabricator with the given functions and signature. -/
def given (v e : Option Nat) (sg : Sig) : Fabricator := ⟨v.map .user, e.map .user, sg⟩

private theorem half {code : Int} {o : Option Nat} {free free' : Field} {r r' : Order} (h : o = none → free = none) :
    ∃ x, fabricatorHalf code (o.map .user) free r free' r' = .ok x ∧ x.1 = some (o.elim .identityUop .user) ∧ (o = none → x.2.1 = none) := by
  cases o with
  | none =>
    rw [h rfl]
    exact ⟨_, rfl, rfl, fun _ => rfl⟩
  | some i =>
    cases free with
    | none => exact ⟨_, rfl, rfl, fun h => by cases h⟩
    | some d => exact ⟨_, rfl, rfl, fun h => by cases h⟩

private theorem call_elim {X : Type} (user : Nat → X → X) (o : Option Nat) : call user (some (o.elim .identityUop .user)) = o.elim id user := by
  cases o <;> rfl

private theorem given_full (hv : v = none → sg.vFree = none) (he : e = none → sg.eFree = none) :
    ∃ a, inferredFabricator (given v e sg) s = .ok a ∧ a.vFab = some (v.elim .identityUop .user) ∧ a.eFab = some (e.elim .identityUop .user) ∧
      (v = none → a.sig.vFree = none) ∧ (e = none → a.sig.eFree = none) := by
  obtain ⟨x, h1, h2, h3⟩ := half (code := UNDEFB) (free' := s.eFree) (r := sg.eOrder) (r' := s.eOrder) he
  obtain ⟨y, h4, h5, h6⟩ := half (code := UNDVFB) (free' := s.vFree) (r := sg.vOrder) (r' := s.vOrder) hv
  refine ⟨⟨y.1, x.1, ⟨y.2.2, x.2.2, y.2.1, x.2.1⟩⟩, ?_, h5, h2, h6, h3⟩
  unfold inferredFabricator given
  simp only [h1, h4]
  rfl

/-- **C166.** If no function is given for vertices or for labels, then no destructor may be either, and the graph that's returned is a copy with the vertices or labels
of the given one.  The only error is CRU_INTKIL. -/
theorem C166_copy (hg : g.WF) (hv : v = none → sg.vFree = none) (he : e = none → sg.eFree = none) (h : FabricatedBy u (given v e sg) s addr hn g r) :
    (∃ R, r = .ok R ∧ IsCopy (v.elim id u.vertex) (e.elim id u.label) g R ∧ R.WF) ∨ r = .error Build.intKil := by
  obtain ⟨a, ha, h1, h2, -⟩ := given_full (s := s) hv he
  unfold FabricatedBy at h
  rw [ha] at h
  dsimp only at h
  rw [h1, h2, call_elim, call_elim] at h
  cases r with
  | error c => exact .inr (by rw [C16_error hg h])
  | ok R => exact .inl ⟨R, rfl, C16_copy hg h⟩

/-- **C166.** The vertices or labels shared by both graphs aren't destroyed along with the copy, because it has no destructor for them. -/
theorem C166_shared (hv : v = none → sg.vFree = none) (he : e = none → sg.eFree = none) :
    ∃ a, inferredFabricator (given v e sg) s = .ok a ∧ (v = none → a.sig.vFree = none) ∧ (e = none → a.sig.eFree = none) := by
  obtain ⟨a, ha, -, -, h⟩ := given_full (s := s) hv he
  exact ⟨a, ha, h⟩

/-- **C166.** If a destructor is given for labels or for vertices but no function, it's an error, and no graph is returned. -/
theorem C166_undefined :
    (e = none → sg.eFree ≠ none → (FabricatedBy u (given v e sg) s addr hn g r ↔ r = .error UNDEFB)) ∧
    ((e = none → sg.eFree = none) → v = none → sg.vFree ≠ none → (FabricatedBy u (given v e sg) s addr hn g r ↔ r = .error UNDVFB)) := by
  obtain ⟨vo, eo, vf, ef⟩ := sg
  refine ⟨fun h h' => ?_, fun he h h' => ?_⟩
  · cases h
    cases ef with
    | none => exact absurd rfl h'
    | some d => rfl
  · cases h
    cases vf with
    | none => exact absurd rfl h'
    | some d =>
      obtain ⟨x, h1, -⟩ := half (code := UNDEFB) (free' := s.eFree) (r := eo) (r' := s.eOrder) he
      unfold FabricatedBy inferredFabricator given
      simp only [h1]
      rfl

/-- Non-vacuity of C166: a copy of the graph `Duplex.kite` with the same vertices and other labels. -/
example : ∃ h, FabricatedBy ⟨fun _ v => v, fun _ l => l + 1⟩ (given none (some 0) ⟨⟨none, none⟩, ⟨none, none⟩, none, none⟩)
      ⟨⟨none, none⟩, ⟨none, none⟩, none, none⟩ id (show 0 < 3 by decide) Duplex.kite (.ok h) ∧
    ∃ φ : Nat → Spawn.Id 3, h.base = φ 0 ∧ h.vertex (φ 2) = some 2 ∧ (h.out (φ 0)).Perm [(8, φ 1), (8, φ 1), (9, φ 2)] := by
  obtain ⟨h, hf⟩ := (C16_terminates Duplex.kite_wf id (· + 1) id (show 0 < 3 by decide)).2
  refine ⟨h, hf, ?_⟩
  obtain ⟨⟨φ, hinj, hp, hb, hk⟩, -⟩ := C16_copy Duplex.kite_wf hf
  exact ⟨φ, hb, (hk 2 (by decide)).1, (hk 0 (by decide)).2.1⟩

end Cru.Fab
