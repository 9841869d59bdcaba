/-!
# The scalar hash (repl.c:44-61) for 64-bit machine words
-/

namespace Cru.Hash

/-- `k ^= k >> 33` (repl.c:55, 57, 59). -/
def mix (k : BitVec 64) : BitVec 64 := k ^^^ (k >>> 33)

/-- `_cru_scalar_hash` (repl.c:44-61). -/
def scalarHash (n : BitVec 64) : BitVec 64 :=
  let k := n + 1
  let k := mix k
  let k := k * 0xff51afd7ed558ccd#64
  let k := mix k
  let k := k * 0xc4ceb9fe1a85ec53#64
  mix k

end Cru.Hash
