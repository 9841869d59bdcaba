import Verif.Model.Bag

/-!
# A ledger for messages

`ledger T` is task `T` with a book-keeper: it records every packet sent, every packet
handled together with the lane that handled it, and every packet put back by deferral.
It does not change what the task does.
-/

namespace Cru.Net

variable {n : Nat} {P G E : Type}

structure Ledger (n : Nat) (P : Type) where
  sent : Multiset P
  handled : Multiset (Fin n × P)
  deferred : Multiset P

def ledger (T : Task n P G E) : Task n P (G × Ledger n P) E where
  dest := T.dest
  handle i g p :=
    let r := T.handle i g.1 p
    ((r.1, { sent := (r.2.1 : Multiset P) + g.2.sent
             handled := (i, p) ::ₘ g.2.handled
             deferred := if r.2.2 then p ::ₘ g.2.deferred else g.2.deferred }), r.2.1, r.2.2)
  env e g := (T.env e g.1, g.2)

/-- The ledger when only the initial packet has been sent. -/
def Ledger.start (i₀ : P) : Ledger n P := { sent := {i₀}, handled := 0, deferred := 0 }

end Cru.Net
