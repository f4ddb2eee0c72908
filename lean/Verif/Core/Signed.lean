import Verif.Core.Run

/-! The master heuristic of include/find_embedding/pathfinder.hpp with its counts as 32-bit signed integers,
which may be negative. `Core/Run.lean` is the same for natural numbers. -/

namespace MM

open Scratch (Cfg)

/-- The counts of `optional_parameters` (util.hpp:130-142). They are `int`s. -/
structure Counts where
  tries : Int
  innerRounds : Int
  maxNoImp : Int
  clPatience : Int
  deriving DecidableEq, Repr

/-- A value of type `int`; arithmetic leaving the range is undefined behaviour. -/
def i32 (x : Int) : M Int := if -2 ^ 31 ≤ x ∧ x < 2 ^ 31 then .ok x else .error .ub

namespace Run

/-- `pushdown_overfill_pass` (pathfinder.hpp:254-288). Simplified: `num_vars * 2` is not checked. -/
def pushdownPassS (P : Prob) (C : Cfg) (A : Params) (N : Counts) (X : Run) : M (Run × Pass) := do
  let old := X.wb
  let X ← orderBy P .shuffle X
  let (X, imp, ok) ← pushLoop P C old X.order false X
  if ok then
    let X := { X with wb := old }
    if imp then checkStops A .better X
    else if N.innerRounds = 0 then .error .ub
    else do
      let pb ← i32 (X.pushback + ((P.nv * 2 : Nat) : Int).tdiv N.innerRounds)
      checkStops A .same { X with pushback := pb }
  else .ok (X, .failed)

/-- One pass of the inner loop (pathfinder.hpp:627-633). -/
def passS (P : Prob) (C : Cfg) (A : Params) (N : Counts) (X : Run) : M (Run × Pass) :=
  if X.pushback < (P.nv : Int) then pushdownPassS P C A N X
  else overfillPass P C A { X with pushback := X.pushback - 1 }

/-- The inner loop of a trial (pathfinder.hpp:622-652): `round_patience` is the first number minus
`2 ^ 31`, so that 0 stands for the least `int`, `trial` is `trial_patience`, `ip` is
`improvement_patience`. The arguments of `extra_info` are computed whether they are shown or not. -/
def roundsS (P : Prob) (C : Cfg) (A : Params) (N : Counts) (trial : Int) : Nat → Int → Run → M (Run × Int)
  | 0, _, _ => .error .ub
  | k+1, ip, X =>
    if (k : Int) + 1 = 2 ^ 31 ∨ ip = 0 ∨ X.embedded = true then .ok (X, ip)
    else do
      let _ ← i32 (min ip (k - 2 ^ 31) - 1)
      let X := { X with desperate := decide (ip ≤ 1) || decide (trial = 0) || decide ((k : Int) = 2 ^ 31) }
      let (X, res) ← passS P C A N X
      match res with
      | .stopped => roundsS P C A N trial k 0 X
      | .failed => do
        let ip ← i32 (ip - 1)
        roundsS P C A N trial k ip { X with curr := Emb.copy P X.curr X.best, improved := false }
      | .same => do
        let ip ← i32 (ip - 1)
        roundsS P C A N trial k ip { X with improved := false }
      | .better => roundsS P C A N trial k N.maxNoImp { X with pushback := 0, improved := true }

/-- `int` as a number of decrements until undefined behaviour. -/
def ticks (n : Int) : Nat := (n + 2 ^ 31).toNat

/-- The loop over trials (pathfinder.hpp:618-673): `trial_patience` is the number minus `2 ^ 31`. -/
def trialsS (P : Prob) (C : Cfg) (A : Params) (N : Counts) : Nat → Run → M Run
  | 0, _ => .error .ub
  | k+1, X =>
    if (k : Int) + 1 = 2 ^ 31 ∨ X.embedded = true then .ok X
    else do
      let (X, ip) ← roundsS P C A N (k - 2 ^ 31) (ticks N.innerRounds) N.maxNoImp { X with pushback := 0 }
      if (k : Int) ≠ 2 ^ 31 ∧ X.embedded = false ∧ ip = 0 then do
        let X := { X with desperate := false, pushback := 0, curr := Emb.copy P X.curr X.init }
        let (X, res) ← initPass P C A X
        match res with
        | .stopped => .ok X
        | .failed => trialsS P C A N k { X with curr := Emb.copy P X.curr X.best }
        | .same => trialsS P C A N k X
        | .better => do
          let (X, _) ← check P { X with stats := [] }
          trialsS P C A N k X
      else trialsS P C A N k X

/-- The chain length improvement loop (pathfinder.hpp:680-702): the first number bounds the
passes, `ip` is `improvement_patience`. -/
def shrinkS (P : Prob) (C : Cfg) (A : Params) (N : Counts) : Nat → Int → Run → M Run
  | 0, ip, X => if ip = 0 then .ok X else .error .diverge
  | fuel+1, ip, X =>
    if ip = 0 then .ok X
    else do
      let less ← i32 (ip - 1)
      let X := { X with last := Emb.copy P X.last X.curr, desperate := decide (ip = 1) }
      let (X, res) ← chainlengthPass P C A X
      match res with
      | .failed => shrinkS P C A N fuel less { X with curr := Emb.copy P X.curr X.last }
      | .stopped => .ok X
      | .same => shrinkS P C A N fuel less { X with improved := false }
      | .better => shrinkS P C A N fuel N.clPatience { X with improved := true }

/-- `heuristicEmbedding` (pathfinder.hpp:588-705). The last loop may run at most `fuel` times. The counts of
`A` are not used. -/
def heuristicS (P : Prob) (C : Cfg) (A : Params) (N : Counts) (fuel : Nat) (X : Run) : M (Run × Bool) := do
  let (X, go) ← start P C A X
  if go then do
    let (X, _) ← check P { X with stats := [] }
    let X := { X with improved := true, curr := Emb.copy P X.curr X.best }
    let X ← trialsS P C A N (ticks N.tries) X
    if X.embedded ∧ N.clPatience ≠ 0 then do
      let X ← shrinkS P C A N fuel N.clPatience
        { X with wb := 1, curr := Emb.copy P X.curr X.best }
      .ok (X, X.embedded)
    else .ok (X, X.embedded)
  else .ok (X, false)

end Run
end MM
