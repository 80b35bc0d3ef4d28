import Verif.Spec.Tree
import Verif.Model.Proof
/-
Every string that `urkel_verify` hashes for a given proof and key. A broken hash
function is always reported by exhibiting a collision among listed strings.
-/
namespace Urkel

/-- The bit of a key at a depth. -/
def kbit (k : B32) (d : Nat) : Bool := k.bits.getD d false

/-- The hash with which the bottom-up loop starts. -/
def bodyHash (H : HashFn) (key : B32) : PBody → B32
  | .deadend => B32.zero
  | .short pre l r => hashInternal H pre l r
  | .collision k h => hashLeaf H k h
  | .exists v => hashValue H key v

/-- One step of the bottom-up loop. -/
def upHash (H : HashFn) (bit : Bool) (n : PNode) (sub : B32) : B32 :=
  if bit then hashInternal H n.pre n.hash sub else hashInternal H n.pre sub n.hash

/-- The string hashed for a branch (util.c:28-51). -/
def internalPre (pre : Bits) (l r : B32) : Bytes :=
  if pre.size == 0 then [1] ++ l.bytes ++ r.bytes
  else [2] ++ leBytes 2 pre.size ++ pre.data.take ((pre.size + 7) / 8) ++ l.bytes ++ r.bytes

/-- The string hashed for a leaf (util.c:53-63). -/
def leafPre (k vh : B32) : Bytes := [0] ++ k.bytes ++ vh.bytes

/-- The string hashed in one step of the bottom-up loop (proof.c:391-409). -/
def upPre (bit : Bool) (n : PNode) (sub : B32) : Bytes :=
  if bit then internalPre n.pre n.hash sub else internalPre n.pre sub n.hash

/-- The hash the bottom-up loop computes over the nodes below depth `d`. -/
def upFold (H : HashFn) (key : B32) (leafH : B32) : List PNode → Nat → B32
  | [], _ => leafH
  | n :: ns, d => upHash H (kbit key (d + n.pre.size)) n (upFold H key leafH ns (d + n.pre.size + 1))

/-- The strings hashed by the bottom-up loop. -/
def upInputs (H : HashFn) (key : B32) (leafH : B32) : List PNode → Nat → List Bytes
  | [], _ => []
  | n :: ns, d => upPre (kbit key (d + n.pre.size)) n (upFold H key leafH ns (d + n.pre.size + 1)) ::
      upInputs H key leafH ns (d + n.pre.size + 1)

/-- The strings hashed for the body of a proof (proof.c:360-388). -/
def bodyInputs (H : HashFn) (key : B32) : PBody → List Bytes
  | .deadend => []
  | .short pre l r => [internalPre pre l r]
  | .collision k h => [leafPre k h]
  | .exists v => [v, leafPre key (H v)]

/-- Every string hashed when a proof is verified for a key. -/
def Proof.inputs (H : HashFn) (key : B32) (p : Proof) : List Bytes :=
  bodyInputs H key p.body ++ upInputs H key (bodyHash H key p.body) p.nodes 0


/-- Every string hashed by `urkel_verify` on these bytes (proof.c:345-418). -/
def verifyInputs (H : HashFn) (raw : Bytes) (key : B32) : List Bytes :=
  match proofRead raw with
  | .ok (some p) => p.inputs H key
  | _ => []

end Urkel
