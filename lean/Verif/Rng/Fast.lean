/-! Model of include/fastrng.hpp. -/

namespace MM
namespace Rng

/-- `uint64_t`. -/
abbrev U64 := BitVec 64

/-- `uint32_t`. -/
abbrev U32 := BitVec 32

/-- The mixing of `splitmix64` (fastrng.hpp 26-28). -/
def mix (z : U64) : U64 :=
  let z := (z ^^^ (z >>> 30)) * 0xBF58476D1CE4E5B9#64
  let z := (z ^^^ (z >>> 27)) * 0x94D049BB133111EB#64
  z ^^^ (z >>> 31)

/-- `splitmix64` (fastrng.hpp 24-29): the result and the new value of `x`. -/
def splitmix64 (x : U64) : U64 × U64 :=
  let x := x + 0x9E3779B97F4A7C15#64
  (mix x, x)

/-- `splitmix32` (fastrng.hpp 31-36), where `UL` constants make the products 64 bits wide before they are cut to 32 bits, which comes to the same: the result and the new value of `x`. -/
def splitmix32 (x : U32) : U32 × U32 :=
  let x := x + 0x6D2B79F5#32
  let z := x
  let z := (z ^^^ (z >>> 15)) * (z ||| 1#32)
  let z := z ^^^ (z + (z ^^^ (z >>> 7)) * (z ||| 61#32))
  (z ^^^ (z >>> 14), x)

/-- The state `S0`, `S1`. -/
structure State where
  s0 : U64
  s1 : U64
  deriving DecidableEq, Repr

/-- The constructor from 64 bits (fastrng.hpp 43-46). -/
def make (x : U64) : State :=
  let a := splitmix64 x
  let b := splitmix64 a.2
  ⟨a.1, b.1⟩

/-- `amplify_seed` (fastrng.hpp 48-53). -/
def amplify (x : U32) : U64 :=
  let a := splitmix32 x
  let b := splitmix32 a.2
  (b.1.setWidth 64 <<< 32) + a.1.setWidth 64

/-- What `operator()` and one round of `discard` do to the state (fastrng.hpp 66-71, 76-80). -/
def step (s : State) : State :=
  let x := s.s0
  let y := s.s1
  let x := x ^^^ (x <<< 23)
  ⟨y, x ^^^ y ^^^ (x >>> 17) ^^^ (y >>> 26)⟩

/-- `operator()` (fastrng.hpp 65-72): the number and the new state. -/
def draw (s : State) : U64 × State := ((step s).s1 + s.s1, step s)

/-- `discard(n)` (fastrng.hpp 74-82). -/
def discard : Nat → State → State
  | 0, s => s
  | n + 1, s => discard n (step s)

/-- `seed` from 64 bits (fastrng.hpp 59-63). -/
def seed64 (x : U64) : State := discard 64 (make x)

/-- `seed` from 32 bits (fastrng.hpp 55-57). -/
def seed32 (x : U32) : State := seed64 (amplify x)

/-- The first `n` numbers drawn. -/
def stream : Nat → State → List U64
  | 0, _ => []
  | n + 1, s => (draw s).1 :: stream n (draw s).2

end Rng
end MM
