import Verif.Model.PoolMutate

/-!
# Vocabulary about threads that share memory and locks
-/

namespace Cru.Pool

variable {A X L : Type}

/-- Whether the thread is going to access address `a` at once, and whether it's to store something there. -/
def Code.Accesses (a : A) (w : Bool) : Code A X L → Prop
  | .load b _ => b = a ∧ w = false
  | .store b _ _ => b = a ∧ w = true
  | _ => False

/-- A data race: two threads are free to access the same place at the same time, and one of them is to store something. -/
def Race (s : State A X L) : Prop :=
  ∃ (t u : Nat) (c d : Code A X L) (a : A) (w : Bool), t ≠ u ∧ s.threads[t]? = some c ∧ s.threads[u]? = some d ∧ c.Accesses a true ∧ d.Accesses a w

/-- All threads have come to an end. -/
def Ended (s : State A X L) : Prop := ∀ c ∈ s.threads, c = .done

/-- A thread doesn't wait for anything, neither for a lock nor for another thread, while it has a lock, it releases the locks that it has,
and it joins only threads that it has started.  `kids` are those, and `held` is the lock that it has, if any.  Threads started by it are
polite as well. -/
inductive Polite : List Nat → Option L → Code A X L → Prop
  | done {kids} : Polite kids none .done
  | load {kids held a k} : (∀ x, Polite kids held (k x)) → Polite kids held (.load a k)
  | store {kids held a x k} : Polite kids held k → Polite kids held (.store a x k)
  | rdlock {kids l k} : Polite kids (some l) k → Polite kids none (.rdlock l k)
  | wrlock {kids l k} : Polite kids (some l) k → Polite kids none (.wrlock l k)
  | unlock {kids l k} : Polite kids none k → Polite kids (some l) (.unlock l k)
  | start {kids c k} : Polite [] none c → (∀ u, Polite (u :: kids) none (k u)) → Polite kids none (.start c k)
  | join {kids u k} : u ∈ kids → Polite kids none k → Polite kids none (.join u k)

/-- A thread can't end, whatever it loads, without acquiring lock `l`. -/
inductive Needs (l : L) : Code A X L → Prop
  | load {a k} : (∀ x, Needs l (k x)) → Needs l (.load a k)
  | store {a x k} : Needs l k → Needs l (.store a x k)
  | rdlock {k} : Needs l (.rdlock l k)
  | wrlock {k} : Needs l (.wrlock l k)
  | rdlock_later {l' k} : Needs l k → Needs l (.rdlock l' k)
  | wrlock_later {l' k} : Needs l k → Needs l (.wrlock l' k)
  | unlock {l' k} : Needs l k → Needs l (.unlock l' k)
  | start {c k} : (∀ u, Needs l (k u)) → Needs l (.start c k)
  | join {u k} : Needs l k → Needs l (.join u k)

/-- A place `a` is accessed only with its lock `l` held, for writing if something is stored there, and threads started do likewise.  `r` says
whether the thread has lock `l` for reading, and `w` for writing. -/
inductive Guarded (a : A) (l : L) : Bool → Bool → Code A X L → Prop
  | done {r w} : Guarded a l r w .done
  | load {r w b k} : (b = a → r = true ∨ w = true) → (∀ x, Guarded a l r w (k x)) → Guarded a l r w (.load b k)
  | store {r w b x k} : (b = a → w = true) → Guarded a l r w k → Guarded a l r w (.store b x k)
  | rdlock {w k} : Guarded a l true w k → Guarded a l false w (.rdlock l k)
  | wrlock {k} : Guarded a l false true k → Guarded a l false false (.wrlock l k)
  | unlock {r w k} : Guarded a l false false k → Guarded a l r w (.unlock l k)
  | rdlock_other {r w l' k} : l' ≠ l → Guarded a l r w k → Guarded a l r w (.rdlock l' k)
  | wrlock_other {r w l' k} : l' ≠ l → Guarded a l r w k → Guarded a l r w (.wrlock l' k)
  | unlock_other {r w l' k} : l' ≠ l → Guarded a l r w k → Guarded a l r w (.unlock l' k)
  | start {r w c k} : Guarded a l false false c → (∀ u, Guarded a l r w (k u)) → Guarded a l r w (.start c k)
  | join {r w u k} : Guarded a l r w k → Guarded a l r w (.join u k)

/-- A thread is bound to acquire lock `l` for writing, and then, not having released it, to start another thread that needs the lock, and to
join that one.  `b` says whether it has the lock already. -/
inductive Doomed (l : L) : Bool → Code A X L → Prop
  | load {b a k} : (∀ x, Doomed l b (k x)) → Doomed l b (.load a k)
  | store {b a x k} : Doomed l b k → Doomed l b (.store a x k)
  | rdlock {b l' k} : l' ≠ l → Doomed l b k → Doomed l b (.rdlock l' k)
  | wrlock {b l' k} : l' ≠ l → Doomed l b k → Doomed l b (.wrlock l' k)
  | unlock {b l' k} : l' ≠ l → Doomed l b k → Doomed l b (.unlock l' k)
  | own {k} : Doomed l true k → Doomed l false (.wrlock l k)
  | nest {c : Code A X L} {k} : Needs l c → (∀ u, ∃ k', k u = .join u k') → Doomed l true (.start c k)

/-- A function given to the library that keeps to itself: it doesn't wait for locks or threads. -/
def Modest (g : Act A X L) : Prop := ∀ kids held k, (∀ y, Polite kids held (k y)) → Polite kids held (g k)

/-- All functions of a kernel are like that. -/
def Kernel.Modest (K : Kernel A X L) : Prop :=
  (∀ f ∈ K.vop, ∀ v i o, Pool.Modest (f v i o)) ∧ ∀ f ∈ K.eop, ∀ v x w, Pool.Modest (f v x w)

/-- A function that starts a thread and waits for it before it returns `y`, which is what a call of a library function comes down to. -/
def nested (c : Code A X L) (y : X) : Act A X L := fun k => .start c fun u => .join u (k y)

/-- A kernel in terms of ordinary functions. -/
structure Ops (X : Type) where
  ordered : Bool
  before : Sight
  after : Sight
  vop : Option (X → List (X × X) → List (X × X) → X)
  eop : Option (X → X → X → X)

/-- The same as a kernel. -/
def Ops.kernel (o : Ops X) : Kernel A X L where
  ordered := o.ordered
  before := o.before
  after := o.after
  vop := o.vop.map fun f v i o k => k (f v i o)
  eop := o.eop.map fun f v x w k => k (f v x w)

end Cru.Pool
