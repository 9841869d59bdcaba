import Verif.Spec.Built
import Verif.Model.Fab
import Verif.Model.Cross
import Verif.Model.Filter
import Verif.Model.Mutate
import Verif.Model.Compose
import Verif.Model.Split
import Verif.Model.Stretch
import Verif.Model.Spread
import Verif.Model.Dedup
import Verif.Spec.Mutate
import Verif.Spec.Dedup
import Verif.Spec.Stretch
import Verif.Spec.Spread
import Verif.Spec.Filter
import Verif.Spec.Duplex
import Verif.Props.Partition
import Verif.Proofs.Postpone

/-!
# Histories of graphs

What the other files model one at a time is put together here: a graph given to one operation is any graph that others may have returned.
-/

namespace Cru.History

variable {N V L : Type}

/-- What's done to the incoming edges by operations that remove them, whenever there are any (merge.c:523-529, compose.c:429-434,
postpone.c:373-378, duplex.c:378-382). -/
def Halved {n : Nat} [DecidableEq N] (addr : N → Nat) (hn : 0 < n) (g : Gr N V L) (inn : N → List (L × N)) : Prop :=
  if Duplex.halfDuplex g then inn = g.inn else Duplex.Launched (Duplex.half g.out addr hn) g inn 0

/-- A graph with its nodes at other addresses, `f` being the new address of a node and `old` the other way around. -/
def moved {M : Type} (f : N → M) (old : M → N) (g : Gr N V L) : Gr M V L where
  nodes := g.nodes.map f
  base := f g.base
  vertex m := g.vertex (old m)
  out m := (g.out (old m)).map fun e => (e.1, f e.2)
  inn m := (g.inn (old m)).map fun e => (e.1, f e.2)

/-- The non-empty graphs a program can have got from any sequence of calls that aren't killed, by any number of workers in any schedule.
The user's functions are any that comply with the conditions stated in the manual pages.

* `built`: `cru_built` (entry.c:186-218).
* `fabricated`: `cru_fabricated` (entry.c:256-280).
* `crossed`: `cru_crossed` (entry.c:226-248).
* `observed`: `cru_mapreduced`, `cru_induced` and `cru_partition_of` (entry.c:555-674), which leave incoming edges if they need them
  (zones.c:216-222, props.c:250-262).
* `filtered`: `cru_filtered` (entry.c:877-903).
* `mutated`: `cru_mutated` (entry.c:955-982), which leaves incoming edges.
* `merged`: `cru_merged` (entry.c:837-869).
* `composed`: `cru_composed` (entry.c:754-780).
* `postponed`: `cru_postponed` (entry.c:990-1018).
* `split`: `cru_split` (entry.c:722-745).
* `stretched`: `cru_stretched` (entry.c:686-713), where no two vertices are equal.
* `spread`: `cru_spread` (entry.c:791-822) without a subconnector, where no two vertices are equal.
* `deduplicated`: `cru_deduplicated` (entry.c:912-939).
* `moved`: nothing depends on what the addresses are. -/
inductive Made : {N V L : Type} → Gr N V L → Prop
  | built {n : Nat} {V L : Type} {b : Build.Builder V L} {hn : 0 < n} {v₀ : V} {G : Build.Graph n V L} :
      b.Sane → b.Respects → Build.Returns b hn v₀ (.ok G) → Made G.toGr
  | fabricated {n : Nat} {N V L W M : Type} [DecidableEq N] {g : Gr N V L} {vf : V → W} {ef : L → M} {addr : N → Nat} {hn : 0 < n}
      {h : Gr (Spawn.Id n) (Option W) M} : Made g → Fab.Fabricated vf ef addr hn g (.ok h) → Made h
  | crossed {n : Nat} {N V L V' L' W M : Type} [DecidableEq N] {g : Gr N V L} {h : Gr N V' L'} {x : Cross.Crosser V V' L L' W M}
      {addr : N → Nat} {hn : 0 < n} {r : Gr (Spawn.Id n) (Option W) M} : Made g → Made h → Cross.Crossed x addr hn g h (.ok r) → Made r
  | observed {n : Nat} {N V L : Type} [DecidableEq N] {g : Gr N V L} {needed : Bool} {addr : N → Nat} {hn : 0 < n} {inn : N → List (L × N)} :
      Made g → Duplex.Prepared needed addr hn g inn 0 → Made { g with inn := inn }
  | filtered {n : Nat} {N V L : Type} [DecidableEq N] [DecidableEq L] {g R : Gr N V L} {u : Filter.Filter V L} {backwards : Bool} {initial : N}
      {addr : N → Nat} {hn : 0 < n} {inn : N → List (L × N)} {k₁ k₂ : Nat} : Made g → Duplex.Prepared true addr hn g inn 0 →
      Filter.Filters u { g with inn := inn } backwards initial addr hn k₁ k₂ 0 (.ok (some R)) → Made R
  | mutated {n : Nat} {N V L : Type} [DecidableEq N] {g h : Gr N V L} {p : Mutate.Plan} {b : N} {k : Mutate.Kernel V L} {hash : N → Nat}
      {hn : 0 < n} {inn : N → List (L × N)} {k₃ : Nat} {s : Mutate.Job n N V L} : Made g → Duplex.Prepared true hash hn g inn 0 →
      Mutate.Mutates { g with inn := inn } p b k hash hn 0 0 k₃ s (.ok h) → Made h
  | merged {n : Nat} {N V L X : Type} [DecidableEq N] [DecidableEq X] {g R : Gr N V L} {c : Partition.Classifier N X} {val : N → Option X}
      {same : Option X → Option X → Bool} {o : Merge.EdgeOps N L} {vop : Option (List N → V)} {addr : N → Nat} {hn : 0 < n}
      {inn : N → List (L × N)} {x : Net.State n N (Trav.Job n N (Partition.Mem N X))} : Made g → Halved addr hn g inn →
      (∀ t m, c.map t m = (val m, 0)) → (∀ t x y, c.equal t x y = (same x y, 0)) → IsEquality same → HashRespects c.hash same →
      IsEquality o.eq → HashRespects o.hash o.eq → Function.Injective addr →
      Partition.Sets { g with inn := inn } c addr hn x → x.g.killed = 0 → Merge.Merges { g with inn := inn } c o vop addr hn x.g R →
      Made { R with inn := inn }
  | composed {n : Nat} {N V L P : Type} [DecidableEq N] [DecidableEq L] {g R : Gr N V L} {c : Compose.Composer P L}
      {mapped : Gr N V L → N → P × P} {eq : L → L → Bool} {addr : N → Nat} {hn : 0 < n} {inn : N → List (L × N)} : Made g →
      Halved addr hn g inn → IsEquality eq → Function.Injective addr → Compose.Composes c mapped eq addr hn { g with inn := inn } R →
      Made { R with inn := inn }
  | postponed {n : Nat} {N V L : Type} [DecidableEq N] {g : Gr N V L} {p : Postpone.Postponer V L} {eq : L → L → Bool} {addr : N → Nat}
      {hn : 0 < n} {inn : N → List (L × N)} {M : Postpone.Mem N V L} {ks : List (Nat × Nat)} {err : Int} : Made g → Halved addr hn g inn →
      IsEquality eq → Function.Injective addr → Postpone.Postpones p eq addr hn { g with inn := inn } M ks err → (∀ k ∈ ks, k = (0, 0)) →
      Made { g with out := M.out, inn := inn }
  | split {n : Nat} {N V L P : Type} [DecidableEq N] [DecidableEq L] {g : Gr N V L} {sp : Split.Splitter V P L} {nil : P} {null : L}
      {vfree : Bool} {limit : Nat} {addr : Split.Twin N → Nat} {hn : 0 < n} {inn : N → List (L × N)} {R : Gr (Split.Twin N) V L} : Made g →
      Duplex.Prepared true (fun m => addr (m, false)) hn g inn 0 →
      Split.Splits sp nil null vfree limit { g with inn := inn } addr hn 0 0 0 (.ok R) → Made R
  | stretched {n : Nat} {N N' V L P : Type} [DecidableEq V] [DecidableEq L] {g : Gr N V L} {o : Dedup.Orders V L}
      {x : Stretch.Stretcher V L P} {limit : Nat} {hn : 0 < n} {r : Gr N' V L} : Made g → o.Lawful → Stretch.Distinct o g →
      Stretch.Stretched o x (Stretch.limitOf limit n) hn false g (.ok r) → Made r
  | spread {n : Nat} {N V L : Type} [DecidableEq N] [DecidableEq V] {g : Gr N V L} {b : Build.Builder V L} {a : Spread.Addr N V} {hn : 0 < n}
      {late : Bool} {r : Gr (Spread.Nd N V) V L} : Made g → b.Sane → b.sub = false → Spread.Distinct b g →
      Spread.Spread b g a hn false late (.ok r) → Made r
  | deduplicated {n : Nat} {N V L : Type} [DecidableEq N] [DecidableEq V] [DecidableEq L] {g r : Gr N V L} {o : Dedup.Orders V L}
      {addr : N → Nat} {hn : 0 < n} {inn : N → List (L × N)} : Made g → Halved addr hn g inn → o.Lawful →
      Dedup.Dedups o { g with inn := inn } addr hn 0 (.ok r) → Made { r with inn := inn }
  | moved {N M V L : Type} {g : Gr N V L} {f : N → M} {old : M → N} : Made g → (∀ m, old (f m) = m) → Made (moved f old g)

end Cru.History
