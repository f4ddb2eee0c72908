import Verif.Eden.Wrap
import Mathlib.Data.Rat.Floor

/-! The whole of `random_processor`. -/

namespace MM
namespace Eden

open Spec.Eden (Qb)

/-- `int(x)` for a number (polynomialembedder.py 1227): towards zero. -/
def truncate (x : Rat) : Int := if 0 ≤ x then ⌊x⌋ else ⌈x⌉

/-- `random_processor` (polynomialembedder.py 1206-1234). `round` is the rounding of the product `nqubits * qubit_yield` to a floating point number, `pick` the first call of
`random.sample` with the order of the set made from it, `sample` the second one. Both calls raise for negative numbers, the first for more than all qubits; the second number is
`min(num_evil, len(possibly_evil_edges))`, which is negative if `num_evil` is. -/
def randomYield (round : Rat → Rat) (pick : List Qb → Nat → List Qb) (sample : List (Qb × Qb) → Nat → List (Qb × Qb)) (M N L : Nat) (y : Rat) (numEvil : Int) : Except Err Proc :=
  let qs := allQubits M N L
  let k := truncate (round (qs.length * y))
  if k < 0 ∨ (qs.length : Int) < k then .error .value
  else if numEvil < 0 then .error .value
  else .ok (randomProcessor M N L (pick qs k.toNat) sample numEvil.toNat)

end Eden
end MM
