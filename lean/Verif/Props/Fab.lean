import Verif.Spec.Fab
import Verif.Proofs.Spawn
import Verif.Proofs.Demo
import Verif.Props.Duplex

/-! # C16: fabrication -/

namespace Cru

theorem Depicts.congr {K J W M : Type} {keys : List K} {base : K} {vertex : K → W} {edges edges' : K → List (M × K)} {h : Gr J (Option W) M}
    (he : ∀ k, (edges k).Perm (edges' k)) (hd : Depicts keys base vertex edges h) : Depicts keys base vertex edges' h := by
  obtain ⟨φ, h1, h2, h3, h4⟩ := hd
  exact ⟨φ, h1, h2, h3, fun k hk => ⟨(h4 k hk).1, (h4 k hk).2.1.trans ((he k).map _), (h4 k hk).2.2⟩⟩

theorem Covers.congr {K : Type} {out out' : K → List K} {a : K} {ms : List K} (he : ∀ k, (out k).Perm (out' k)) (hc : Covers out a ms) :
    Covers out' a ms := by
  refine ⟨hc.nodup, fun m => ?_⟩
  rw [hc.mem]
  have : (fun x y => y ∈ out x) = (fun x y => y ∈ out' x) := by
    funext x y; exact propext (he x).mem_iff
  unfold Reaches
  rw [this]

namespace Fab

open Net

variable {n : Nat} {N V L W M : Type}

theorem edges_eq (vf : V → W) (ef : L → M) (g : Gr N V L) (m : N) : (maker vf ef g).edges m = ((g.out m).map fun e => (ef e.1, e.2)).reverse := by
  have : ∀ (l : List (L × N)) (acc : List (M × N)), l.foldl (fun es e => (ef e.1, e.2) :: es) acc = (l.map fun e => (ef e.1, e.2)).reverse ++ acc := by
    intro l
    induction l with
    | nil => intro acc; rfl
    | cons a l ih => intro acc; rw [List.foldl_cons, ih]; simp
  exact (this _ _).trans (List.append_nil _)

theorem covers {g : Gr N V L} (hg : g.WF) (vf : V → W) (ef : L → M) :
    Covers (fun m => ((maker vf ef g).edges m).map (·.2)) g.base g.nodes := by
  have h0 : Covers (fun m => (g.out m).map (·.2)) g.base g.nodes := ⟨hg.nodup, fun m => by rw [hg.reach, Duplex.next_out]⟩
  refine h0.congr fun m => ?_
  rw [edges_eq, List.map_reverse, List.map_map]
  exact (List.reverse_perm _).symm

variable [DecidableEq N]

/-- **C16.** Whatever graph is returned, with any number of lanes and any schedule, it's a copy of the given one with the fabricated vertices and
labels, and it's well-formed. -/
theorem C16_copy {g : Gr N V L} (hg : g.WF) {vf : V → W} {ef : L → M} {addr : N → Nat} {hn : 0 < n} {h : Gr (Spawn.Id n) (Option W) M}
    (hf : Fabricated vf ef addr hn g (.ok h)) : IsCopy vf ef g h ∧ h.WF := by
  have hd := (Spawn.launched_ok (covers hg vf ef) hf).1
  refine ⟨hd.congr fun m => ?_, hd.wf (covers hg vf ef)⟩
  rw [edges_eq]
  exact List.reverse_perm _

/-- **C16.** Nothing is returned if and only if the call is killed, and then the error is CRU_INTKIL. -/
theorem C16_killed {g : Gr N V L} {vf : V → W} {ef : L → M} {addr : N → Nat} {hn : 0 < n}
    {x : State n (Spawn.Pkt n N) (Spawn.Work n N W M)} (hx : Net.Reach (Spawn.task (maker vf ef g) 0 addr hn) ⟨g.base, none⟩ Spawn.start x)
    (hd : x.main = .done) :
    Fabricated vf ef addr hn g (if x.g.killed = 0 then .ok (Spawn.graph (Build.lane hn (addr g.base)) x.g.mem) else .error Build.intKil) := by
  refine ⟨x, hx, hd, ?_⟩
  have := Spawn.launched_limitless hx hd
  by_cases hk : x.g.killed = 0 <;> simp [this, hk]

/-- **C16.** The only error is CRU_INTKIL. -/
theorem C16_error {g : Gr N V L} (hg : g.WF) {vf : V → W} {ef : L → M} {addr : N → Nat} {hn : 0 < n} {e : Int}
    (hf : Fabricated vf ef addr hn g (.error e)) : e = Build.intKil := by
  rcases Spawn.launched_error (covers hg vf ef) hf with h | ⟨-, h, -⟩
  · exact h
  · exact absurd rfl h

/-- **C16.** Every run ends, and some run that isn't killed returns a graph. -/
theorem C16_terminates {g : Gr N V L} (hg : g.WF) (vf : V → W) (ef : L → M) (addr : N → Nat) (hn : 0 < n) :
    (∀ f : Nat → State n (Spawn.Pkt n N) (Spawn.Work n N W M), Net.Reach (Spawn.task (maker vf ef g) 0 addr hn) ⟨g.base, none⟩ Spawn.start (f 0) →
      ¬ ∀ j, step (Spawn.task (maker vf ef g) 0 addr hn) ⟨g.base, none⟩ .main (f j) = some (f (j + 1)) ∨
        ∃ i, step (Spawn.task (maker vf ef g) 0 addr hn) ⟨g.base, none⟩ (.worker i) (f j) = some (f (j + 1))) ∧
    ∃ h, Fabricated vf ef addr hn g (.ok h) := by
  refine ⟨fun f h0 hf => no_infinite_run hn (Spawn.ends (covers hg vf ef)) f h0 hf, ?_⟩
  obtain ⟨r, h1, h2⟩ := Spawn.unkilled (limit := 0) (hash := addr) (hn := hn) (covers hg vf ef)
  rcases r with e | h
  · exact absurd (by rw [C16_error hg h1]) h2
  · exact ⟨h, h1⟩

/-- Non-vacuity of C16: the graph `Duplex.kite`, with two parallel edges, a loop and a cycle, copied on three lanes. -/
example : ∃ h, Fabricated (W := String) toString (· + 1) id (show 0 < 3 by decide) Duplex.kite (.ok h) ∧ h.nodes.length = 4 ∧
    ∃ φ : Nat → Spawn.Id 3, h.base = φ 0 ∧ h.vertex (φ 2) = some "2" ∧ (h.out (φ 0)).Perm [(8, φ 1), (8, φ 1), (9, φ 2)] ∧
      (h.out (φ 2)).Perm [(10, φ 3), (7, φ 2)] ∧ φ 0 ≠ φ 3 := by
  obtain ⟨h, hf⟩ := (C16_terminates Duplex.kite_wf (W := String) toString (· + 1) id (show 0 < 3 by decide)).2
  obtain ⟨⟨φ, hinj, hp, hb, hk⟩, -⟩ := C16_copy Duplex.kite_wf hf
  refine ⟨h, hf, ?_, φ, hb, (hk 2 (by decide)).1, (hk 0 (by decide)).2.1, (hk 2 (by decide)).2.1, fun e => ?_⟩
  · rw [hp.length_eq]; rfl
  · exact absurd (hinj 0 (by decide) 3 (by decide) e) (by decide)

/-- Non-vacuity of the error: a call killed before it starts returns CRU_INTKIL. -/
example : Fabricated (W := String) toString (· + 1) id (show 0 < 3 by decide) Duplex.kite (.error Build.intKil) := by
  obtain ⟨s, h1, h2, h3⟩ := exists_done_from (T := Spawn.task (maker (W := String) toString (· + 1) Duplex.kite) 0 id (show 0 < 3 by decide)) (by decide)
    (Spawn.ends (covers Duplex.kite_wf _ _)) (fun s => s.killed = 1)
    (fun i s p h => by
      change (Spawn.handle _ 0 i s p).1.killed = 1
      rw [Spawn.killed_eq]; exact h) _ (.step (.env ()) trivial .init rfl) rfl
  have := C16_killed h1 h2
  rwa [if_neg (by rw [h3]; decide)] at this

end Fab
end Cru
