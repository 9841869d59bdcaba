import Verif.Model.Classify

/-!
# Vertex properties and all of `cru_partition_of` (props.c:51-315, classes.c:314-349, entry.c:652-674)

The incident fold of the property is taken to be empty, so that the graph needn't be in duplex form (props.c:293-294, 300-307).
`map t m` is the result and the error of the user's fold and vertex map at node `m` when called at time `t`
(`_cru_mapped_node_with_locks`, nodes.c:379-414; `Model/Fold.lean`).  A property is null (`none`) or not.  The destructor is given;
without one there is nothing to free.
-/

namespace Cru.Partition

open Net

variable {n : Nat} {N V L X : Type}

/-- The `vertex_property` fields of nodes, the time, and the non-null properties made and freed so far. -/
structure Mem (N X : Type) where
  prop : N → Option X
  clock : Nat
  made : Multiset X
  freed : Multiset X

def ofOption {X : Type} : Option X → Multiset X
  | none => 0
  | some x => {x}

/-- `_cru_propped` (props.c:182-211). -/
def setOne [DecidableEq N] (map : Nat → N → Option X × Int) (s : Mem N X) (m : N) : Mem N X × Int :=
  match s.prop m with
  | some _ => (s, -1403)
  | none =>
    let r := map s.clock m
    if r.2 = 0 then
      ({ s with prop := Function.update s.prop m r.1, clock := s.clock + 1, made := s.made + ofOption r.1 }, 0)
    else
      ({ s with clock := s.clock + 1, made := s.made + ofOption r.1, freed := s.freed + ofOption r.1 }, r.2)

/-- `property_setting_task` (props.c:222-266). -/
def setTask [DecidableEq N] (g : Gr N V L) (map : Nat → N → Option X × Int) (addr : N → Nat) (hn : 0 < n) :
    Task n N (Trav.Job n N (Mem N X)) Unit :=
  Trav.task (g.next false) (fun _ => setOne map) addr hn

/-- Free the property of a node (props.c:85-87, 116-118).  `destroy t x` is the error raised by the destructor. -/
def unsetOne [DecidableEq N] (destroy : Nat → X → Int) (s : Mem N X) (m : N) : Mem N X × Int :=
  match s.prop m with
  | none => (s, 0)
  | some x => ({ s with prop := Function.update s.prop m none, clock := s.clock + 1, freed := s.freed + {x} }, destroy s.clock x)

/-- `property_unsetting_task` (props.c:57-95).  Nodes that arrive after an error are marked as seen by the code and not here,
which makes no difference. -/
def unsetTask [DecidableEq N] (g : Gr N V L) (destroy : Nat → X → Int) (addr : N → Nat) (hn : 0 < n) :
    Task n N (Trav.Job n N (Mem N X)) Empty :=
  Trav.quiet (g.next false) (fun _ => unsetOne destroy) addr hn

/-- `unprop` (props.c:104-122). -/
def unprop [DecidableEq N] (destroy : Nat → X → Int) (nodes : List N) (s : Mem N X) : Mem N X :=
  nodes.foldl (fun s m => (unsetOne destroy s m).1) s

def clear : Mem N X := ⟨fun _ => none, 0, 0, 0⟩

/-- The error taken from workers with these statuses, in some order (`_cru_status_disjunction`, crew.c:307-329): one of those
that are non-zero. -/
def Status (err : Fin n → Int) (e : Int) : Prop := (∃ i, e = err i ∧ e ≠ 0) ∨ (e = 0 ∧ ∀ i, err i = 0)

/-- `_cru_unset_properties` (props.c:149-167) started with error `e` in state `s` may end in state `s'`. -/
def Unsets [DecidableEq N] (g : Gr N V L) (destroy : Nat → X → Int) (addr : N → Nat) (hn : 0 < n) (s : Mem N X) (e : Int)
    (s' : Mem N X) : Prop :=
  if e = 0 ∨ e = Build.intKil then
    ∃ x : State n N (Trav.Job n N (Mem N X)), Net.Reach (unsetTask g destroy addr hn) g.base (Trav.start s) x ∧ x.main = .done ∧
      ∃ e', Status x.g.err e' ∧ s' = if e = 0 ∧ e' = 0 then x.g.mem else unprop destroy g.nodes x.g.mem
  else s' = unprop destroy g.nodes s

/-- The user's functions. -/
structure Classifier (N X : Type) where
  map : Nat → N → Option X × Int
  hash : Option X → Nat
  equal : Nat → Option X → Option X → Bool × Int
  destroy : Nat → X → Int

/-- `cru_partition_of`, from the state `x` at the end of property setting (props.c:296, 337): the partition returned, the error
code, and the memory at the end.  If there's an error then there's no partition (props.c:298-299, 313-314; classes.c:337-341).
The router is shared while properties are set, so `_cru_free_router` (launch.c:70) returns at route.c:667-668 and doesn't report
the kill flag, and then `_cru_reset` clears it (classes.c:342, route.c:512).  Classification is that of `Model/Classify.lean`, and
its state is there at the end with an error `w` when properties are unset (classes.c:342-346), before the kill flag is
reported (classes.c:347). -/
def Finishes [DecidableEq N] [DecidableEq V] [DecidableEq X] (g : Gr N V L) (c : Classifier N X) (addr : N → Nat) (hn : 0 < n)
    (x : Trav.Job n N (Mem N X)) (result : Option (Classify.Mem n N V)) (e : Int) (end_ : Mem N X) : Prop :=
  ∃ e₁, Status x.err e₁ ∧
    ((e₁ ≠ 0 ∧ result = none ∧ e = e₁ ∧ Unsets g c.destroy addr hn x.mem e₁ end_) ∨
    (e₁ = 0 ∧ ∃ y : State n N (Trav.Job n N (Classify.Mem n N V)),
      Net.Reach (Classify.task g x.mem.prop c.hash c.equal hn) g.base Classify.start y ∧ y.main = .done ∧
      ∃ w, Status y.g.err w ∧ (result, e) = Classify.returned y.g w ∧ Unsets g c.destroy addr hn x.mem w end_))

end Cru.Partition
