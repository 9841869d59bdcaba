import Verif.Model.Wrap

/-!
# Vocabulary for the memory checker

A history is the list of all calls so far with their results, the latest last.
-/

namespace Cru.Wrap

variable {F : Type}

/-- All histories, with the state they lead to. -/
inductive Hist [DecidableEq F] (c : Cfg) : St F → List (Op F × Res) → Prop
  | init : Hist c init []
  | call {s h} (o : Op F) : Hist c s h → Hist c (step c s o).1 (h ++ [(o, (step c s o).2)])

/-- An attempt to allocate something, really or not. -/
def attempt : Op F → Bool
  | .malloc _ _ _ => true
  | .simulate => true
  | _ => false

/-- The number of attempts that succeeded. -/
def granted (h : List (Op F × Res)) : Nat := h.countP fun x => attempt x.1 && (x.2.val != 0)

/-- The limit in effect: the latest that was accepted. -/
def limitOf (h : List (Op F × Res)) : Option Nat :=
  h.foldl (fun l x => match x.1 with
    | .limit k => if x.2.err = 0 then some k else l
    | _ => l) none

/-- There's an attempt that failed for no reason but the limit. -/
def refusal : Op F × Res → Bool
  | (.malloc _ _ true, r) => r.val == 0
  | (.simulate, r) => r.err == noMem
  | _ => false

/-- Storage of the size `q` allocated in the given file is obtained by this call. -/
def obtains [DecidableEq F] (f : F) (q : Nat) : Op F × Res → Bool
  | (.malloc f' q' _, r) => decide (f' = f) && decide (q' = q) && (r.val != 0)
  | _ => false

/-- Storage of the size `q` is freed in the given file by this call. -/
def releases [DecidableEq F] (f : F) (q : Nat) : Op F × Res → Bool
  | (.free f' q', _) => decide (f' = f) && decide (q' = q)
  | _ => false

/-- At some time, something of some size was freed in some file although everything of that size obtained in that file until then had
already been freed. -/
def Excess [DecidableEq F] (h : List (Op F × Res)) : Prop :=
  ∃ h₁ f q r h₂, h = h₁ ++ (Op.free f q, r) :: h₂ ∧ h₁.countP (obtains f q) ≤ h₁.countP (releases f q)

/-- The numbers of all areas obtained and freed, whatever their sizes. -/
def obtained (h : List (Op F × Res)) : Nat := h.countP fun x => match x.1 with
  | .malloc _ _ _ => x.2.val != 0
  | _ => false

def released (h : List (Op F × Res)) : Nat := h.countP fun x => match x.1 with
  | .free _ _ => true
  | _ => false

/-- The files in which storage of the size `q` is requested. -/
def files (q : Nat) (h : List (Op F × Res)) : List F := h.filterMap fun x => match x.1 with
  | .malloc f q' _ => if q' = q then some f else none
  | _ => none

/-- The size of anything allocated is within the limits of the tracker. -/
def sized : Op F → Prop
  | .malloc _ q _ => 0 < q ∧ q ≤ 256
  | .free _ q => 0 < q ∧ q ≤ 256
  | _ => True

/-- The C library always has memory. -/
def ample : Op F → Prop
  | .malloc _ _ lib => lib = true
  | _ => True

/-- What's supposed of the history: anything allocated has a suitable size, the C library never runs out of memory, and there are no
more files requesting any given size than there is room for. -/
def Tame [DecidableEq F] (c : Cfg) (h : List (Op F × Res)) : Prop :=
  (∀ x ∈ h, sized x.1 ∧ ample x.1) ∧ ∀ q, (files q h).dedup.length ≤ c.mallox

end Cru.Wrap
