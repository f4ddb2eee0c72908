import Verif.Bus.Clique
import Verif.Bus.Next
import Verif.Bus.Small

/-! Model of `clique_yield_cache` (include/busclique/clique_cache.hpp 346-503) and `best_cliques` (find_clique.hpp 228-247). -/

namespace MM
namespace Bus

/-- `clique_number` (util.hpp 215, 376, 463). -/
def Topo.cliqueNumber : Topo → Nat
  | .chimera _ _ _ => 2
  | .pegasus _ _ => 4
  | .zephyr _ _ => 4

/-- `compute_length_bound` (clique_cache.hpp 356-366). -/
def lengthBound : Topo → Nat
  | .chimera m n _ => 2 + min m n
  | .pegasus d _ => 5 + d
  | .zephyr d _ => 4 + d

/-- The arrays `clique_yield` and `best_embeddings` (clique_cache.hpp 352-354). -/
structure Yield where
  counts : List Nat
  embs : List (List (List Nat))
  deriving DecidableEq, Repr

/-- `emb_max_length` (clique_cache.hpp 375-380). -/
def embMaxLength (emb : List (List Nat)) : Nat := emb.foldl (fun m c => max m c.length) 0

/-- The two assignments that keep an embedding (clique_cache.hpp 387-388, 401-402). -/
def Yield.keep (Y : Yield) (len n : Nat) (emb : List (List Nat)) : B Yield := do
  let c ← put Y.counts len n
  let e ← put Y.embs len emb
  pure ⟨c, e⟩

/-- `process_cliques` for a clique cache made for a width and a check (clique_cache.hpp 382-391). -/
def processCliques (T : Topo) (lines : List Byte) (check : Ell → Bool) (W : Nat) (Y : Yield) : B Yield := do
  let r ← cliqueOf T lines check W
  match r with
  | none => pure Y
  | some emb => do
    let old ← at_ Y.counts (embMaxLength emb)
    if old < emb.length then Y.keep (embMaxLength emb) emb.length emb else pure Y

/-- `compute_cache_width_1` (clique_cache.hpp 393-408) for the cells still to be seen. -/
def widthOne (T : Topo) (lines : List Byte) : List (Nat × Nat) → Yield → B Yield
  | [], Y => pure Y
  | (y, x) :: cells, Y => do
    let s ← ellScore T lines ⟨y, x, y, y, x, x⟩
    let old ← at_ Y.counts 2
    let Y ← if old < s then do
        let emb ← inflateEll T lines ⟨y, x, y, y, x, x⟩ []
        Y.keep 2 s emb
      else pure Y
    if s = T.shore then pure Y else widthOne T lines cells Y

/-- The cells in the order of the two loops. -/
def Topo.allCells (T : Topo) : List (Nat × Nat) := (List.range T.dimY).flatMap fun y => (List.range T.dimX).map fun x => (y, x)

/-- `line_length` of Pegasus (util.hpp 348-353), for positions from the offset on. -/
def pegasusLength (off : Bool → Nat → Nat) (u : Bool) (w z0 z1 : Nat) : Nat := (z1 + 12 - off u (w % 6)) / 6 - (z0 + 6 - off u (w % 6)) / 6

/-- `bundles.length` of Pegasus (bundle_cache.hpp 97-99). -/
def pegasusEllLength (off : Bool → Nat → Nat) (e : Ell) : Nat := pegasusLength off false e.xc e.y0 e.y1 + pegasusLength off true e.yc e.x0 e.x1

/-- The ells whose lengths `get_length_range` looks at (clique_cache.hpp 477-503). -/
def rangeElls (W : Nat) : List Ell :=
  (List.range W).flatMap fun i => (List.range' 6 6).flatMap fun y => (List.range' 6 6).flatMap fun x =>
    [⟨y, x, y, y + (W - i) - 1, x, x + (i + 1) - 1⟩, ⟨y + (W - i) - 1, x, y, y + (W - i) - 1, x, x + (i + 1) - 1⟩,
      ⟨y, x + (i + 1) - 1, y, y + (W - i) - 1, x, x + (i + 1) - 1⟩, ⟨y + (W - i) - 1, x + (i + 1) - 1, y, y + (W - i) - 1, x, x + (i + 1) - 1⟩]

/-- `get_length_range` (clique_cache.hpp 477-503): minimum and maximum. The minimum starts at the largest number there is, here `none`. -/
def lengthRange (off : Bool → Nat → Nat) (W : Nat) : Option Nat × Nat :=
  (rangeElls W).foldl (fun r e => (some (match r.1 with | none => pegasusEllLength off e | some m => min m (pegasusEllLength off e)), max r.2 (pegasusEllLength off e))) (none, 0)

/-- The lengths from the minimum up to, but without, the maximum. -/
def lengthsTried (off : Bool → Nat → Nat) (W : Nat) : List Nat :=
  match lengthRange off W with
  | (none, _) => []
  | (some a, b) => List.range' a (b - a)

/-- The searches of `compute_cache_width_gt_1` (clique_cache.hpp 410-453): width and bound for the length, if there is one. -/
def widthsTried (T : Topo) : List (Nat × Option Nat) :=
  (List.range' 2 (min T.dimY T.dimX - 1)).flatMap fun w =>
    match T with
    | .pegasus _ off => (w, none) :: (lengthsTried off w).map fun len => (w, some len)
    | _ => [(w, none)]

/-- `nocheck` and `check_length` (clique_cache.hpp 90, 422-426). -/
def checkFor (T : Topo) : Option Nat → Ell → Bool
  | none, _ => true
  | some len, e =>
    match T with
    | .pegasus _ off => decide (pegasusEllLength off e ≤ len)
    | _ => true

/-- Whether `compute_cache` has a pass for width 1 (clique_cache.hpp 455-470). -/
def Topo.hasWidthOne : Topo → Bool
  | .pegasus _ _ => false
  | _ => true

/-- `clique_yield_cache` (clique_cache.hpp 369-372, 455-470). -/
def yieldOf (T : Topo) (C : Masks) : B Yield := do
  let lines ← lineMasks T C
  let Y : Yield := ⟨List.replicate (lengthBound T) 0, List.replicate (lengthBound T) []⟩
  let Y ← if T.hasWidthOne then widthOne T lines T.allCells Y else pure Y
  (widthsTried T).foldlM (fun Y p => processCliques T lines (checkFor T p.2) p.1 Y) Y

/-- The loop of `best_cliques` over the embeddings of one mask (find_clique.hpp 238-245). -/
def mergeYield : List (List (List Nat)) → List (List (List Nat)) → List (List (List Nat))
  | embs, [] => embs
  | [], e :: es => e :: mergeYield [] es
  | o :: embs, e :: es => (if o.length < e.length then e else o) :: mergeYield embs es

/-- `best_cliques` (find_clique.hpp 229-247) with the embedding of `short_clique`. All masks are made before the first one is used, which makes no difference. -/
def bestCliques (T : Topo) (bound : Nat) (D D' : Draws) (nodes : List Nat) (edges : List (Nat × Nat)) : B (List (List (List Nat))) := do
  let l ← searched T bound D D' nodes edges
  l.foldlM (fun embs C => do
    let Y ← yieldOf T C
    pure (mergeYield embs Y.embs)) [[], shortClique T.cliqueNumber nodes edges]

end Bus
end MM
