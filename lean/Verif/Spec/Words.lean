import Verif.Spec.Graph

/-! # Words spelled by paths -/

namespace Cru

/-- There's a path from one thing to another whose labels, in order, are the given word. -/
inductive Spells {K M : Type} (edges : K → List (M × K)) : K → List M → K → Prop
  | nil (a : K) : Spells edges a [] a
  | cons {a b c : K} {l : M} {w : List M} : (l, b) ∈ edges a → Spells edges b w c → Spells edges a (l :: w) c

/-- The vertices of a graph to which its base has a path labelled with the given word. -/
def Ends {N V L : Type} (g : Gr N V L) (w : List L) (m : N) : Prop := Spells g.out g.base w m

/-- The graph has a path from its base labelled with the word. -/
def Accepts {N V L : Type} (g : Gr N V L) (w : List L) : Prop := ∃ m, Ends g w m

/-- Two words have the same length, and labels deemed equal at each position. -/
def Alike {L : Type} (eq : L → L → Bool) (w w' : List L) : Prop := List.Forall₂ (fun a b => eq a b = true) w w'

/-- Related vertices have equally labelled edges to related vertices. -/
def Stable {N V L : Type} (g : Gr N V L) (eq : L → L → Bool) (rel : N → N → Prop) : Prop :=
  ∀ a ∈ g.nodes, ∀ b ∈ g.nodes, rel a b → ∀ e ∈ g.out a, ∃ d ∈ g.out b, eq e.1 d.1 = true ∧ rel e.2 d.2

end Cru
