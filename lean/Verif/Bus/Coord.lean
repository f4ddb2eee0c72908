import Verif.Bus.Bits

/-! Model of `coordinate_converter` (include/busclique/coordinate_types.hpp 305-486). In release builds
`size_y`, `size_x`, `size_w`, `size_z` are all `size_t` (coordinate_types.hpp 260-270) and
`minorminer_assert` does nothing; numbers are natural numbers here, without the bound of 64 bits. -/

namespace MM
namespace Bus

/-- The orientation `u` as a number. -/
def unum (u : Bool) : Nat := if u then 1 else 0

/-- `cell_index(y, x, u)` (coordinate_types.hpp 316-327). -/
def cellYX (dx : Nat) (y x : Nat) (u : Bool) : Nat := unum u + 2 * (x + dx * y)

/-- `cell_index(u, w, z)` (coordinate_types.hpp 332-338). -/
def cellUWZ (dx : Nat) (u : Bool) (w z : Nat) : Nat := if u then cellYX dx w z u else cellYX dx z w u

/-- `chimera_linear` (coordinate_types.hpp 342-355). -/
def chimeraLinear (dx t : Nat) (y x : Nat) (u : Bool) (k : Nat) : Nat := k + t * (unum u + 2 * (x + dx * y))

/-- `linear_chimera` (coordinate_types.hpp 359-372). -/
def linearChimera (dx t : Nat) (q : Nat) : Nat × Nat × Bool × Nat :=
  (q / t / 2 / dx, q / t / 2 % dx, decide (q / t % 2 = 1), q % t)

/-- `linemajor_linear` (coordinate_types.hpp 376-396). -/
def linemajorLinear (dw t dz : Nat) (u : Bool) (w k z : Nat) : Nat := z + dz * (k + t * (w + dw * unum u))

/-- `linear_linemajor` (coordinate_types.hpp 408-420). `u = q` makes any number but 0 true. -/
def linearLinemajor (dw t dz : Nat) (q : Nat) : Bool × Nat × Nat × Nat :=
  (decide (q / dz / t / dw ≠ 0), q / dz / t % dw, q / dz % t, q % dz)

/-- `grid_index` (coordinate_types.hpp 452-462). -/
def gridIndex (dx : Nat) (y x : Nat) : Nat := x + dx * y

/-- `binom` (util.hpp 53). -/
def binom (x : Nat) : Nat := (x * x + x) / 2

/-- `bundle_cache_index` (coordinate_types.hpp 465-484). -/
def bundleIndex (su sw : Nat) (u : Bool) (w z0 z1 : Nat) : Nat := unum u * su + w * sw + binom z1 + z0

end Bus
end MM
