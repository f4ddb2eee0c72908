import Verif.Core.Signed
import Verif.Graph.Param

/-! A call with counts that may be negative. -/

namespace MM

open Scratch (Cfg)

/-- `findEmbedding` (find_embedding.hpp:232-247) with `int` counts `N`; the loop that shortens chains may
run at most `fuel` times. The counts of `A` are not used. -/
def findEmbeddingS (sort : List (List Nat) → List (List Nat)) (C : Cfg) (A : Params) (N : Counts) (fuel : Nat)
    (returnOverlap : Bool) (I : Input) (t : Tape) : M (Bool × List (List Nat)) := do
  let p ← I.process sort
  let X ← Run.new p.P p.init t
  let (X, ok) ← Run.heuristicS p.P C { A with restricted := !I.restrC.isEmpty } N fuel X
  if returnOverlap || ok then do
    let cs ← p.getChains X.best (List.range I.src.n) X.S.tape
    .ok (ok, cs)
  else .ok (ok, [])

end MM
