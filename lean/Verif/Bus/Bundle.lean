import Verif.Bus.Topo

/-! Model of `bundle_cache` (include/busclique/bundle_cache.hpp) and of `construct_line` (util.hpp). -/

namespace MM
namespace Bus

/-- Lines of an orientation: `side.dim_w` (bundle_cache.hpp 118-121). -/
def sideW (T : Topo) (u : Bool) : Nat := if u then T.dimY else T.dimX

/-- Positions of a line: `side.dim_z`. -/
def sideZ (T : Topo) (u : Bool) : Nat := if u then T.dimX else T.dimY

/-- The loop over `z0` (bundle_cache.hpp 128-131), from `n - 1` down to 0; `base` is the pointer `mask` relative to
`line_mask`. -/
def fillDown (T : Topo) (C : Masks) (u : Bool) (w base : Nat) : Nat → Byte → List Byte → B (List Byte)
  | 0, _, mem => pure mem
  | n + 1, m, mem => do
    let e ← at_ C.edge (T.cell u w (n + 1))
    let m' := m &&& e
    let mem ← put mem (base + n) m'
    fillDown T C u w base n m' mem

/-- The loop over `z` (bundle_cache.hpp 124-132): `n` more rounds from `z` on. -/
def fillLine (T : Topo) (C : Masks) (u : Bool) (w : Nat) : Nat → Nat → Nat → List Byte → B (Nat × List Byte)
  | 0, _, base, mem => pure (base, mem)
  | n + 1, z, base, mem => do
    let base := base + z
    let m ← at_ C.node (T.cell u w z)
    let mem ← put mem (base + z) m
    let mem ← fillDown T C u w base z m mem
    fillLine T C u w n (z + 1) base mem

/-- The loop over `w` (bundle_cache.hpp 123-134): `n` more rounds from `w` on. -/
def fillSide (T : Topo) (C : Masks) (u : Bool) : Nat → Nat → Nat → List Byte → B (Nat × List Byte)
  | 0, _, base, mem => pure (base, mem)
  | n + 1, w, base, mem => do
    let (base, mem) ← fillLine T C u w (sideZ T u) 0 base mem
    fillSide T C u n (w + 1) (base + sideZ T u) mem

/-- The constructor with `compute_line_masks` (bundle_cache.hpp 40-46, 116-137). -/
def lineMasks (T : Topo) (C : Masks) : B (List Byte) := do
  let mem := List.replicate (T.dimX * binom T.dimY + T.dimY * binom T.dimX) 0
  let (base, mem) ← fillSide T C false (sideW T false) 0 0 mem
  let (_, mem) ← fillSide T C true (sideW T true) 0 base mem
  pure mem

/-- `get_line_mask` (bundle_cache.hpp 107-114). -/
def lineMask (T : Topo) (mem : List Byte) (u : Bool) (w z0 z1 : Nat) : B Byte :=
  at_ mem (bundleIndex (T.dimX * binom T.dimY) (if u then binom T.dimX else binom T.dimY) u w z0 z1)

/-- `get_line_score` (bundle_cache.hpp 101-103). -/
def lineScore (T : Topo) (mem : List Byte) (u : Bool) (w z0 z1 : Nat) : B Nat := do
  let m ← lineMask T mem u w z0 z1
  popcount m

/-- A difference of unsigned numbers. A negative one would wrap around; here it is an error, so that theorems say that it does not
happen. -/
def sub_ (a b : Nat) : B Nat := if b ≤ a then pure (a - b) else .error .ub

/-- `construct_line` (util.hpp 338-346, 419-428, 542-551). -/
def constructLine (T : Topo) (u : Bool) (w z0 z1 k : Nat) : B (List Nat) :=
  match T with
  | .chimera _ _ _ =>
    if u then pure ((List.range' z0 (z1 + 1 - z0)).map fun x => chimeraLinear T.dimX T.shore w x true k)
    else pure ((List.range' z0 (z1 + 1 - z0)).map fun y => chimeraLinear T.dimX T.shore y w false k)
  | .pegasus d off => do
    let qk := (w * 2 + k) % 12
    let qw := (w * 2 + k) / 12
    let a ← sub_ z0 (off u (qk / 2))
    let b ← sub_ z1 (off u (qk / 2))
    pure ((List.range' (a / 6) (b / 6 + 1 - a / 6)).map fun qz => pegasusLinear d u qw qk qz)
  | .zephyr d t => do
    let a ← sub_ z0 (k % 2)
    let b ← sub_ z1 (k % 2)
    pure ((List.range' (a / 2) (b / 2 + 1 - a / 2)).map fun qz => zephyrLinear d t u w k qz)

/-- A vertical line `xc`, rows `y0` to `y1`, and a horizontal line `yc`, columns `x0` to `x1`, that cross. -/
structure Ell where
  yc : Nat
  xc : Nat
  y0 : Nat
  y1 : Nat
  x0 : Nat
  x1 : Nat
  deriving DecidableEq, Repr

/-- `score` (bundle_cache.hpp 48-53). -/
def ellScore (T : Topo) (mem : List Byte) (e : Ell) : B Nat := do
  let a ← lineScore T mem false e.xc e.y0 e.y1
  let b ← lineScore T mem true e.yc e.x0 e.x1
  pure (min a b)

/-- The loop of `inflate` for an ell (bundle_cache.hpp 59-66). -/
def inflateLoop (T : Topo) (e : Ell) : Nat → Byte → Byte → List (List Nat) → B (List (List Nat))
  | 0, _, _, _ => .error .diverge
  | fuel + 1, k0, k1, emb =>
    if k0 = 0 ∨ k1 = 0 then pure emb
    else do
      let a ← firstBit k0
      let b ← firstBit k1
      let v ← constructLine T false e.xc e.y0 e.y1 a
      let h ← constructLine T true e.yc e.x0 e.x1 b
      let k0 ← dropFirst k0
      let k1 ← dropFirst k1
      inflateLoop T e fuel k0 k1 (emb ++ [v ++ h])

/-- `inflate` for an ell (bundle_cache.hpp 55-67). -/
def inflateEll (T : Topo) (mem : List Byte) (e : Ell) (emb : List (List Nat)) : B (List (List Nat)) := do
  let k0 ← lineMask T mem false e.xc e.y0 e.y1
  let k1 ← lineMask T mem true e.yc e.x0 e.x1
  inflateLoop T e 9 k0 k1 emb

/-- Chains for a list of ells, one after the other (no function of its own in the code). -/
def inflateAll (T : Topo) (mem : List Byte) (es : List Ell) : B (List (List Nat)) := es.foldlM (fun emb e => inflateEll T mem e emb) []

/-- The loop over the bits of one bundle (bundle_cache.hpp 88-93). -/
def linesLoop (T : Topo) (u : Bool) (w z0 z1 : Nat) : Nat → Byte → List (List Nat) → B (List (List Nat))
  | 0, _, _ => .error .diverge
  | fuel + 1, k, emb =>
    if k = 0 then pure emb
    else do
      let a ← firstBit k
      let v ← constructLine T u w z0 z1 a
      let k ← dropFirst k
      linesLoop T u w z0 z1 fuel k (emb ++ [v])

/-- `inflate(u, …)` (bundle_cache.hpp 75-95): all lines of one orientation through a rectangle; `n` more bundles from `w` on. -/
def inflateSide (T : Topo) (mem : List Byte) (u : Bool) (z0 z1 : Nat) : Nat → Nat → List (List Nat) → B (List (List Nat))
  | 0, _, emb => pure emb
  | n + 1, w, emb => do
    let k ← lineMask T mem u w z0 z1
    let emb ← linesLoop T u w z0 z1 9 k emb
    inflateSide T mem u z0 z1 n (w + 1) emb

/-- `inflate` for a rectangle (bundle_cache.hpp 69-73). -/
def inflateRect (T : Topo) (mem : List Byte) (y0 y1 x0 x1 : Nat) : B (List (List Nat)) := do
  let emb ← inflateSide T mem false y0 y1 (x1 + 1 - x0) x0 []
  inflateSide T mem true x0 x1 (y1 + 1 - y0) y0 emb

end Bus
end MM
