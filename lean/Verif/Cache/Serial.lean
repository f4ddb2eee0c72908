import Verif.Bus.Topo

/-! Model of the serialization of a topology: include/busclique/util.hpp 84-148, 165-168, 217-220, topo_cache.hpp 78-81, and `_serialize` of minorminer/busclique.pyx 776-801. -/

namespace MM
namespace Bus

/-- What is at the address of a `size_t` or `uint64_t`: eight bytes, the lowest first (as on all platforms that are supported). -/
def le64 (x : BitVec 64) : List Byte := (List.range 8).map fun i => x.extractLsb' (8 * i) 8

/-- `offsets`, an array of 2 times 6 bytes (util.hpp 209). -/
def offsetBytes (off : Bool → Nat → Nat) : List Byte := [false, true].flatMap fun u => (List.range 6).map fun i => BitVec.ofNat 8 (off u i)

/-- The fields in the order in which they are serialized, each as the bytes in memory (util.hpp 165-168, 217-220; topo_cache.hpp 78-81). The seed of Pegasus is not among them. -/
def serialFields (T : Topo) (seed : BitVec 64) (M : Masks) : List (List Byte) :=
  match T with
  | .pegasus _ off => [offsetBytes off, M.node, M.edge, M.bad]
  | _ => [le64 (BitVec.ofNat 64 T.dimY), le64 (BitVec.ofNat 64 T.dimX), le64 (BitVec.ofNat 64 T.shore), le64 seed, M.node, M.edge, M.bad]

/-- `_serialize` with `serialize_size_tag` (util.hpp 106-114, 139-148). -/
def serialSize : List (List Byte) → Nat
  | [] => 0
  | f :: fs => f.length + serialSize fs

/-- `memcpy` into a buffer. -/
def memcpy (buf : List Byte) (at' : Nat) (src : List Byte) : B (List Byte) :=
  if at' + src.length ≤ buf.length then pure (buf.take at' ++ src ++ buf.drop (at' + src.length)) else .error .ub

/-- `_serialize` with `serialize_write_tag` (util.hpp 127-133, 139-148) from position `at'` of the buffer on: the buffer and the size that is returned. -/
def serialWrite (buf : List Byte) (at' : Nat) : List (List Byte) → B (List Byte × Nat)
  | [] => pure (buf, 0)
  | f :: fs => do
    let buf ← memcpy buf at' f
    let r ← serialWrite buf (at' + f.length) fs
    pure (r.1, f.length + r.2)

/-- The identifier (busclique.pyx 777-790): what is in a buffer of the size announced, whatever it held before, when the topology has been written to it. -/
def identifier (junk : Nat → List Byte) (T : Topo) (seed : BitVec 64) (M : Masks) : B (List Byte) := do
  let fs := serialFields T seed M
  let r ← serialWrite (junk (serialSize fs)) 0 fs
  pure r.1

/-- The identifier of a graph (busclique.pyx 848-850, 961-963, 1078-1080). -/
def graphId (junk : Nat → List Byte) (T : Topo) (seed : BitVec 64) (nodes : List Nat) (edges : List (Nat × Nat)) : B (List Byte) := do
  let M ← buildMasks T nodes edges
  identifier junk T seed M

/-- The families, as named in the short code (busclique.pyx 850, 963, 1080). -/
inductive Family where
  | chimera | pegasus | zephyr
  deriving DecidableEq, Repr

/-- The family of a topology. -/
def Topo.family : Topo → Family
  | chimera _ _ _ => .chimera
  | pegasus _ _ => .pegasus
  | zephyr _ _ => .zephyr

/-- Eight bytes as a number, the lowest first. -/
def word (b : List Byte) : BitVec 64 := b.foldr (fun x acc => (acc <<< 8) ||| x.setWidth 64) 0

/-- `shortcode_state` (busclique.pyx 793-798): the sum of the words of eight bytes, and of the bytes left over, each shifted by its position modulo 4. -/
def shortState (b : List Byte) : BitVec 64 :=
  let words := (List.range (b.length / 8)).map fun i => word ((b.drop (8 * i)).take 8)
  let rest := (b.drop (b.length - b.length % 8)).zipIdx.map fun p => (p.1.setWidth 64 : BitVec 64) <<< ((p.2 + (b.length - b.length % 8)) % 4)
  (words ++ rest).foldl (· + ·) 0

/-- The name of the cache file (busclique.pyx 464, 800-801); the text `family_number` determines both. -/
def shortCode (T : Topo) (b : List Byte) : Family × BitVec 64 := (T.family, shortState b)

end Bus
end MM
