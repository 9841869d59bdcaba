import Verif.Model.Infer
import Verif.Model.MapReduce
import Verif.Model.Filter

/-!
# What the replacement functions do (repl.c), in tasks that use them

Vertices, labels and results are words; NULL is zero.  The user's functions depend only on their operands and raise no errors; they are
looked up by their numbers.  Allocation failures and storage are left out, because the defaults are only for scalars.
-/

namespace Cru.Repl

open Infer

/-- `void *`. -/
abbrev Word := BitVec 64

/-- Pointers other than NULL, which is `none` where results are concerned. -/
abbrev Value := {w : Word // w ≠ 0}

/-- A result as a word. -/
def word : Option Value → Word
  | none => 0
  | some w => w.1

/-- A word as a result. -/
def ptr (w : Word) : Option Value := if h : w = 0 then none else some ⟨w, h⟩

/-- `NON_NULL` (config.h.in:28). -/
def nonNull : Word := ~~~0

/-- `_cru_minimizing_bop` (repl.c:265-273). -/
def minimizingBop (x y : Word) : Word := if x.toNat < y.toNat then x else y

/-- `_cru_identity_bop` (repl.c:245-255). -/
def identityBop (l _ : Word) : Word := l

/-- `_cru_identity_top` (repl.c:289-301). -/
def identityTop (_ m _ : Word) : Word := m

/-- `_cru_true_top` (repl.c:344-353). -/
def trueTop (_ _ _ : Word) : Word := nonNull

/-- `_cru_false_top` (repl.c:360-369). -/
def falseTop (_ _ _ : Word) : Word := 0

/-- `_cru_disjoining_top` (repl.c:377-386). -/
def disjoiningTop (l _ r : Word) : Word := if l ≠ 0 then l else r

/-- The user's functions, by number. -/
structure Env where
  nop : Nat → Word
  bop : Nat → Word → Word → Word
  top : Nat → Word → Word → Word → Word

/-- Calling a nullary operator; -1438 is raised by `_cru_undefined_nop` (repl.c:184-191).  Others aren't of this type. -/
def Env.callNop (u : Env) : Fn → Except Int Word
  | .user n => .ok (u.nop n)
  | _ => .error (-1438)

/-- Calling a binary operator; -1439 is raised by `_cru_undefined_bop` (repl.c:227-238).  Others aren't of this type. -/
def Env.callBop (u : Env) (f : Fn) (x y : Word) : Except Int Word :=
  match f with
  | .user n => .ok (u.bop n x y)
  | .minimizingBop => .ok (minimizingBop x y)
  | .identityBop => .ok (identityBop x y)
  | _ => .error (-1439)

/-- Calling a ternary operator; -1440 is raised by `_cru_undefined_top` (repl.c:308-318) and `CRU_UNDMAP` by `_cru_undefined_map`
(repl.c:325-335).  Others aren't of this type. -/
def Env.callTop (u : Env) (f : Fn) (l m r : Word) : Except Int Word :=
  match f with
  | .user n => .ok (u.top n l m r)
  | .identityTop => .ok (identityTop l m r)
  | .trueTop => .ok (trueTop l m r)
  | .falseTop => .ok (falseTop l m r)
  | .disjoiningTop => .ok (disjoiningTop l m r)
  | .undefinedMap => .error UNDMAP
  | _ => .error (-1440)

/-- The map of the first edge of a fold without vacuous case (edges.c:521): `v` is the vertex, and `e` has the label and the terminus. -/
def seed (u : Env) (f : Fold) (v : Word) (e : Word × Word) : Except Int Word :=
  match f.bmap, f.map with
  | some b, _ => u.callBop b v e.1
  | none, some t => u.callTop t v e.1 e.2
  | none, none => .error (-889)

/-- The map of other edges (edges.c:528). -/
def next (u : Env) (f : Fold) (v : Word) (e : Word × Word) : Except Int Word :=
  match f.map, f.bmap with
  | some t, _ => u.callTop t v e.1 e.2
  | none, some b => u.callBop b v e.1
  | none, none => .error (-889)

/-- The loop (edges.c:525-534), from the previous result `r`. -/
def loop (u : Env) (f : Fold) (red : Fn) (v : Word) : List (Word × Word) → Word → Except Int Word
  | [], r => .ok r
  | e :: es, r => do
    let x ← next u f v e
    let r ← u.callBop red x r
    loop u f red v es r

/-- From the test for a reduction to the end (edges.c:524-537). -/
def rest (u : Env) (f : Fold) (v : Word) (es : List (Word × Word)) (r : Word) : Except Int Word :=
  match es, f.reduction with
  | [], _ => .ok r
  | _ :: _, none => .error (-891)
  | e :: es, some red => loop u f red v (e :: es) r

/-- `reduced_edges` (edges.c:484-538), without dangling edges. -/
def reducedEdges (u : Env) (f : Fold) (v : Word) (es : List (Word × Word)) : Except Int Word :=
  match es, f.vacuousCase with
  | [], none => .error UNDVAC
  | [], some z => u.callNop z
  | e :: es, some z => do
    if f.map.isNone && f.bmap.isNone then throw (-889)
    let r ← u.callNop z
    rest u f v (e :: es) r
  | e :: es, none => do
    if f.map.isNone && f.bmap.isNone then throw (-889)
    if f.mFree ≠ f.rFree then throw (-890)
    let r ← seed u f v e
    rest u f v es r

/-- The result of a fold over edges unless it's empty (nodes.c:402-405). -/
def around (u : Env) (f : Fold) (v : Word) (es : List (Word × Word)) : Except Int Word :=
  if emptyFold f then .ok 0 else reducedEdges u f v es

/-- `mapped_node` (nodes.c:380-414) of a vertex with its incoming and outgoing edges. -/
def mappedNode (u : Env) (p : Prp) (v : Word) (ins outs : List (Word × Word)) : Except Int Word := do
  if p.vertex.map.isNone && p.vertex.bmap.isNone then throw (-1278)
  let i ← around u p.incident v ins
  let o ← around u p.outgoing v outs
  match p.vertex.bmap, p.vertex.map with
  | some b, _ => u.callBop b i v
  | none, some t => u.callTop t i v o
  | none, none => throw (-1278)

/-- A result or an error as the outcome of a callback. -/
def outcome : Except Int Word → Cru.Fold.Outcome Value
  | .ok w => ⟨ptr w, 0⟩
  | .error e => ⟨none, e⟩

/-- A property as it's used by `cru_mapreduced` on the vertices of a graph (mapreduce.c:43-80): the map of a vertex is `mapped_node`. -/
def mapreduceOps {N : Type} (u : Env) (p : Prp) (g : Gr N Word Word) : MapReduce.Ops N Value where
  map _ m := outcome (mappedNode u p (g.vertex m) (Filter.view g (g.inn m)) (Filter.view g (g.out m)))
  red _ x y := match p.vertex.reduction with
    | some f => outcome (u.callBop f (word x) (word y))
    | none => ⟨none, -1122⟩
  vacuous := p.vertex.vacuousCase.map fun f _ => outcome (u.callNop f)
  free := p.vertex.mFree.isSome

/-- The vertex test of a filter (filters.c:137-155): none if it's empty, and otherwise whether the result is NULL. -/
def probe (u : Env) (p : Prp) : Option (Word → List (Word × Word) → List (Word × Word) → Bool × Int) :=
  if emptyProp p then none
  else some fun v ins outs => match mappedNode u p v ins outs with
    | .ok w => (decide (w = 0), 0)
    | .error e => (true, e)

end Cru.Repl
