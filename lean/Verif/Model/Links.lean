import Mathlib.Data.List.Basic

/-!
# Linked lists in memory

Nodes are in doubly linked lists, where the field `previous` of a node points to the pointer to it, which is either a variable or the field
`next_node` of another node.  Edges, packets and buckets are in singly linked lists.  Other models have lists as such; this is about how the
operations on pointers amount to that.
-/

namespace Cru.Links

/-- A place where a pointer to a node can be: a variable, including fields of ports and packets, or the field `next_node` (`next_edge`,
`next_packet`, `other_buckets`) of a node (nodes.h:65-66, edges.h:57, pack.h:51, brig.h:39). -/
inductive Slot (R N : Type) where
  | root (r : R)
  | next (n : N)
  deriving DecidableEq

/-- The pointers in memory, where `none` is the null pointer. -/
structure Heap (R N : Type) where
  ptr : Slot R N → Option N
  prev : N → Option (Slot R N)

/-- A table with another entry in one place. -/
def put {B Y : Type} [DecidableEq B] (m : B → Y) (b : B) (y : Y) : B → Y := fun c => if c = b then y else m c

variable {R N : Type} [DecidableEq R] [DecidableEq N]

/-- `_cru_pushed_node` (nodes.c:211-226), `none` if it refuses to (lines 219-220). -/
def pushed (n : N) (p : Slot R N) (h : Heap R N) : Option (Heap R N) :=
  if (h.prev n).isSome ∨ (h.ptr (.next n)).isSome then none
  else
    let prev := put h.prev n (some p)
    let prev := match h.ptr p with
      | some m => put prev m (some (.next n))
      | none => prev
    some ⟨put (put h.ptr (.next n) (h.ptr p)) p (some n), prev⟩

/-- `_cru_severed` (nodes.c:235-252), `none` if it refuses to (lines 243-244). -/
def severed (n : N) (h : Heap R N) : Option (Heap R N) :=
  match h.prev n with
  | none => none
  | some p =>
    let ptr := if h.ptr p = some n then put h.ptr p (h.ptr (.next n)) else h.ptr
    let prev := match ptr (.next n) with
      | some m => if h.prev m = some (.next n) then put h.prev m (some p) else h.prev
      | none => h.prev
    some ⟨put ptr (.next n) none, put prev n none⟩

/-- `_cru_half_severed` (nodes.c:261-277). -/
def halfSevered (n : N) (h : Heap R N) : Heap R N := ⟨put h.ptr (.next n) none, put h.prev n none⟩

/-- The loop at nodes.c:296, edges.c:277, edges.c:252 and brig.c:298: going from one pointer to the next until it's null.  There's no end to it
if the list is cyclic. -/
inductive Walks (f : Slot R N → Option N) : Slot R N → Slot R N → Prop
  | stop {p} : f p = none → Walks f p p
  | go {p q n} : f p = some n → Walks f (.next n) q → Walks f p q

/-- `_cru_cat_nodes` (nodes.c:284-300): from `h`, with arguments `x` and `y`, to another heap and the result. -/
inductive CatNodes (h : Heap R N) : Option N → Option N → Heap R N → Option N → Prop
  | left {x} : CatNodes h x none h x
  | right {y} : CatNodes h none y h y
  | both {x y p} : Walks h.ptr (.next x) p → CatNodes h (some x) (some y) ⟨put h.ptr p (some y), put h.prev y (some p)⟩ (some x)

/-- `_cru_cat_edges` (edges.c:262-280) and `_cru_cat_brigades` (brig.c:286-301). -/
inductive CatEdges (f : Slot R N → Option N) : Option N → Option N → (Slot R N → Option N) → Option N → Prop
  | left {x} : CatEdges f x none f x
  | right {y} : CatEdges f none y f y
  | both {x y p} : Walks f (.next x) p → CatEdges f (some x) (some y) (put f p (some y)) (some x)

/-- `_cru_push_edge` (edges.c:214-226) and `_cru_push_packet` (pack.c:349-362), `none` if they refuse to. -/
def pushEdge (e : N) (p : Slot R N) (f : Slot R N → Option N) : Option (Slot R N → Option N) :=
  if (f (.next e)).isSome then none else some (put (put f (.next e) (f p)) p (some e))

/-- `_cru_popped_edge` (edges.c:326-340), `_cru_popped_packet` (pack.c:370-385) and `_cru_popped_bucket` (brig.c:60-75). -/
def poppedEdge (p : Slot R N) (f : Slot R N → Option N) : Option ((Slot R N → Option N) × N) :=
  match f p with
  | none => none
  | some e => some (put (put f p (f (.next e))) (.next e) none, e)

/-- `_cru_enqueue_edge` (edges.c:235-254), where `front` and `back` are variables: the new pointers if the loop at lines 252-253 comes to an end
with the last edge. -/
inductive Enqueued (e : N) (front back : R) (f : Slot R N → Option N) : (Slot R N → Option N) → Prop
  | first {g b} : f (.root front) = none → f (.root back) = none → g = put (put f (.root front) (some e)) (.root back) (some e) →
      Walks g (.next e) (.next b) → Enqueued e front back f (put g (.root back) (some b))
  | later {g l b} : (f (.root front)).isSome = true → f (.root back) = some l → f (.next l) = none → g = put f (.next l) (some e) →
      Walks g (.next e) (.next b) → Enqueued e front back f (put g (.root back) (some b))

/-- What workers do to nodes that they take from a common list: sever a node, and insert it into a list of their own. -/
inductive Op (R N : Type) where
  | sever (n : N)
  | push (n : N) (r : R)

/-- Such a sequence of operations, `none` if one is refused. -/
def perform : List (Op R N) → Heap R N → Option (Heap R N)
  | [], h => some h
  | .sever n :: os, h => perform os (halfSevered n h)
  | .push n r :: os, h => (pushed n (.root r) h).bind (perform os)

end Cru.Links
