import Verif.Model.PoolClasses
import Verif.Spec.Pool
import Mathlib.Logic.Relation

/-!
# What threads using a partition at the same time should get
-/

namespace Cru.PoolClasses

open Cru.Pool

variable {k : Nat} {U : Type}

/-- A call that's been made by thread `t`: `cru_class_of` for vertex `v`, with its result, or `cru_united`. -/
inductive Event (k : Nat) (U : Type) where
  | asked (t : Nat) (v : U) (c : Fin k)
  | joined (t : Nat) (x y : Fin k)

/-- Who has made it. -/
def Event.thread : Event k U → Nat
  | .asked t _ _ => t
  | .joined t _ _ => t

/-- The calls of one thread. -/
def callsOf (t : Nat) (h : List (Event k U)) : List (Event k U) := h.filter fun e => e.thread = t

/-- Some calls one after the other by a single thread, which have the results given; `none` if they haven't or don't return. -/
def replay (cls : U → Fin k) : List (Event k U) → Classes.Part k → Option (Classes.Part k)
  | [], p => some p
  | .asked _ v c :: h, p => if Classes.classOf p (cls v) = some c then replay cls h p else none
  | .joined _ x y :: h, p => (Classes.united p x y).bind (replay cls h)

/-- A program of thread `t` makes some calls, with the results given, and goes on with another one. -/
inductive Does (t : Nat) : Prog k U → List (Event k U) → Prog k U → Prop
  | nothing {p} : Does t p [] p
  | asked {v next c h p} : Does t (next c) h p → Does t (.classOf v next) (.asked t v c :: h) p
  | joined {x y next h p} : Does t next h p → Does t (.united x y next) (.joined t x y :: h) p

/-- The second one is what's left of the first one after some accesses of memory, without locks being acquired or released. -/
inductive Amid (c : Thread k) : Thread k → Prop
  | begin : Amid c c
  | load {a K x} : Amid c (.load a K) → Amid c (K x)
  | store {a x K} : Amid c (.store a x K) → Amid c K

/-- A thread is about to make the next call of a program, or has acquired the lock in the course of it and not released it yet. -/
def Facing (cls : U → Fin k) (refs : Fin k → Nat) (p : Prog k U) (c : Thread k) : Prop :=
  c = compile cls refs p ∨ ∃ b, (compile cls refs p = .rdlock () b ∨ compile cls refs p = .wrlock () b) ∧ Amid b c

/-- The state is one that could have come about by the calls `h` one after the other: they have the same results as when they're made by a
single thread, each thread has made its own in the order it should, and it's about to make the next one or is in the middle of it. -/
def Explains (cls : U → Fin k) (progs : List (Prog k U)) (p : Classes.Part k) (s : State (Fin k) (Option (Fin k)) Unit) (h : List (Event k U)) :
    Prop :=
  (∃ q, replay cls h p = some q) ∧ (∀ e ∈ h, e.thread < progs.length) ∧
  ∀ t pr, progs[t]? = some pr → ∃ rest c, Does t pr (callsOf t h) rest ∧ s.threads[t]? = some c ∧ Facing cls p.refs rest c

/-- A program that unites some pairs of classes. -/
def unions : List (Fin k × Fin k) → Prog k U
  | [] => .done
  | x :: xs => .united x.1 x.2 (unions xs)

/-- Two classes have been united. -/
def Joined (h : List (Event k U)) (x y : Fin k) : Prop := ∃ t, .joined t x y ∈ h

end Cru.PoolClasses
