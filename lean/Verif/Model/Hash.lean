import Verif.Model.Codec
import Verif.Spec.Tree
/-
util.c:20-94: hashing of leaves, values and internal nodes, over an arbitrary
32-byte hash function `H` applied to the concatenation of the `update` calls
(that BLAKE2b streaming computes a function of the concatenation is proved in
Verif/Props/Blake2b.lean).
-/
namespace Urkel

/-- `urkel_hash_internal` (util.c:28-51). -/
def hashInternal (H : HashFn) (pre : Bits) (l r : B32) : B32 :=
  if pre.size == 0 then H ([1] ++ l.bytes ++ r.bytes)
  else H ([2] ++ leBytes 2 pre.size ++ pre.data.take ((pre.size + 7) / 8) ++ l.bytes ++ r.bytes)

/-- `urkel_hash_leaf` (util.c:53-63). -/
def hashLeaf (H : HashFn) (key : B32) (vhash : B32) : B32 := H ([0] ++ key.bytes ++ vhash.bytes)

/-- `urkel_hash_value` (util.c:65-78). -/
def hashValue (H : HashFn) (key : B32) (value : Bytes) : B32 := hashLeaf H key (H value)

end Urkel
