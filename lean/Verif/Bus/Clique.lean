import Verif.Bus.Bundle

/-! Model of `maxcache` and `clique_cache` (include/busclique/clique_cache.hpp 20-238): the dynamic program that looks for the
largest clique of a given width. -/

namespace MM
namespace Bus

/-- `corner` (util.hpp 38-51), without the skip variants. -/
inductive Corner where
  | nw
  | ne
  | sw
  | se
  deriving DecidableEq, Repr

namespace Corner

/-- The value of the enumerator: `NW = 1`, `NE = 2`, `SW = 4`, `SE = 8` (util.hpp 39-42). -/
def code : Corner → Nat
  | nw => 1
  | ne => 2
  | sw => 4
  | se => 8

/-- `NWskip = 16` and so on (util.hpp 43-46). -/
def skipCode : Corner → Nat
  | nw => 16
  | ne => 32
  | sw => 64
  | se => 128

end Corner

/-- A view of a part of the array `mem` as a table: `maxcache` (clique_cache.hpp 20-30). -/
structure Tab where
  rows : Nat
  cols : Nat
  base : Nat
  deriving DecidableEq, Repr

/-- `index` (clique_cache.hpp 26-28, coordinate_types.hpp 450-460), from the start of `mem`. -/
def Tab.index (t : Tab) (y x : Nat) : Nat := t.base + (x + t.cols * y)

/-- `setmax` (clique_cache.hpp 31-38): scores are kept above the 8 bits for corners. -/
def setmax (mem : List Nat) (t : Tab) (y x s c : Nat) : B (List Nat) := do
  let old ← at_ mem (t.index y x)
  if s = old >>> 8 then put mem (t.index y x) (old ||| c)
  else if old >>> 8 < s then put mem (t.index y x) ((s <<< 8) ||| c)
  else pure mem

/-- `score` (clique_cache.hpp 39-41). -/
def tabScore (mem : List Nat) (t : Tab) (y x : Nat) : B Nat := do
  let v ← at_ mem (t.index y x)
  pure (v >>> 8)

/-- `corners` (clique_cache.hpp 42-44). -/
def tabCorners (mem : List Nat) (t : Tab) (y x : Nat) : B Nat := do
  let v ← at_ mem (t.index y x)
  pure (v &&& 255)

/-- `memrows` (clique_cache.hpp 69-73). -/
def memrows (T : Topo) (W i : Nat) : B Nat :=
  if i < W then sub_ T.dimY i
  else if i = W then pure 1
  else .error .thrown

/-- `memcols` (clique_cache.hpp 74-78). -/
def memcols (T : Topo) (W i : Nat) : B Nat :=
  if i + 1 < W then do
    let a ← sub_ T.dimX W
    pure (a + i + 2)
  else if i + 1 = W then pure T.dimX
  else .error .thrown

/-- `memsize(i)` (clique_cache.hpp 80-82). -/
def memsize (T : Topo) (W i : Nat) : B Nat := do
  let r ← memrows T W i
  let c ← memcols T W i
  pure (r * c)

/-- `memsize()` (clique_cache.hpp 84-89). -/
def memTotal (T : Topo) (W : Nat) : B Nat :=
  (List.range W).foldlM (fun n i => do let s ← memsize T W i; pure (n + (s + 1))) 0

/-- The start of each table is kept in the first `width` entries (clique_cache.hpp 104-106). -/
def layout (T : Topo) (W : Nat) (mem : List Nat) : B (List Nat) := do
  let mem ← put mem 0 W
  (List.range' 1 (W - 1)).foldlM (fun mem i => do
    let a ← at_ mem (i - 1)
    let s ← memsize T W (i - 1)
    put mem i (a + s)) mem

/-- `get` (clique_cache.hpp 117-120). -/
def tabAt (T : Topo) (W : Nat) (mem : List Nat) (i : Nat) : B Tab := do
  let r ← memrows T W i
  let c ← memcols T W i
  let b ← at_ mem i
  pure { rows := r, cols := c, base := b }

/-- `get(h - 2)`; `h = 1` would wrap around to a number that makes `memrows` throw. -/
def tabBefore (T : Topo) (W : Nat) (mem : List Nat) (h : Nat) : B Tab :=
  if 2 ≤ h then tabAt T W mem (h - 2) else .error .thrown

/-- The ell at a corner of the rectangle (the assignments to `yc`, `xc` in clique_cache.hpp 179-188). -/
def ellAt (y0 y1 x0 x1 : Nat) : Corner → Ell
  | .nw => ⟨y0, x0, y0, y1, x0, x1⟩
  | .sw => ⟨y1, x0, y0, y1, x0, x1⟩
  | .ne => ⟨y0, x1, y0, y1, x0, x1⟩
  | .se => ⟨y1, x1, y0, y1, x0, x1⟩

/-- `next_x` (clique_cache.hpp 179-188); `next_y` is always `y0`. -/
def nextX (x0 : Nat) : Corner → Nat
  | .nw => x0 + 1
  | .sw => x0 + 1
  | .ne => x0
  | .se => x0

/-- `prev_y` (clique_cache.hpp 179-188); `prev_x` is always `x0`. -/
def prevY (y0 : Nat) : Corner → Nat
  | .nw => y0 + 1
  | .ne => y0 + 1
  | .sw => y0
  | .se => y0

/-- The innermost `extend_cache` (clique_cache.hpp 175-195). `prev = none` is `zerocache`. -/
def extendOne (T : Topo) (lines : List Byte) (check : Ell → Bool) (prev : Option Tab) (next : Tab) (mem : List Nat) (y0 y1 x0 x1 : Nat) (c : Corner) :
    B (List Nat) := do
  let s ← match prev with
    | none => pure 0
    | some t => tabScore mem t (prevY y0 c) x0
  if check (ellAt y0 y1 x0 x1 c) then do
    let a ← ellScore T lines (ellAt y0 y1 x0 x1 c)
    setmax mem next y0 (nextX x0 c) (s + a) c.code
  else setmax mem next y0 (nextX x0 c) s c.skipCode

/-- The rounds of the loops over `y`, `x` and the corners (clique_cache.hpp 162-173). -/
def rounds (ny nx : Nat) (cs : List Corner) : List (Nat × Nat × Corner) :=
  (List.range ny).flatMap fun y => (List.range nx).flatMap fun x => cs.map fun c => (y, x, c)

/-- `extend_cache` for all rectangles of `h` rows and `w` columns (clique_cache.hpp 159-165). -/
def extendAll (T : Topo) (lines : List Byte) (check : Ell → Bool) (W : Nat) (prev : Option Tab) (h w : Nat) (cs : List Corner) (mem : List Nat) : B (List Nat) := do
  let next ← tabAt T W mem (h - 1)
  let ny ← sub_ T.dimY h
  let nx ← sub_ T.dimX w
  (rounds (ny + 1) (nx + 1) cs).foldlM (fun mem r => extendOne T lines check prev next mem r.1 (r.1 + h - 1) r.2.1 (r.2.1 + w - 1) r.2.2) mem

/-- `compute_cache` (clique_cache.hpp 137-157). -/
def computeCache (T : Topo) (lines : List Byte) (check : Ell → Bool) (W : Nat) (mem : List Nat) : B (List Nat) := do
  let mem ← extendAll T lines check W none 1 W [.sw, .se] mem
  let mem ← (List.range' 1 (W - 2)).foldlM (fun mem i => do
    let prev ← tabBefore T W mem (i + 1)
    extendAll T lines check W (some prev) (i + 1) (W - i) [.ne, .nw, .sw, .se] mem) mem
  let prev ← tabBefore T W mem W
  extendAll T lines check W (some prev) W 1 [.ne, .se] mem

/-- The constructor (clique_cache.hpp 96-108). -/
def cliqueCache (T : Topo) (lines : List Byte) (check : Ell → Bool) (W : Nat) : B (List Nat) := do
  let n ← memTotal T W
  let mem ← layout T W (List.replicate n 0)
  computeCache T lines check W mem

/-- `inflate_first_ell` (clique_cache.hpp 197-212): the embedding and the new `y` and `x`. -/
def inflateFirst (T : Topo) (lines : List Byte) (emb : List (List Nat)) (y x h w c : Nat) : B (List (List Nat) × Nat × Nat) := do
  let b ← firstBit (BitVec.ofNat 8 c)
  match b with
  | 0 => do
    let x ← sub_ x 1
    let emb ← inflateEll T lines ⟨y, x, y, y + h, x, x + w⟩ emb
    pure (emb, y + 1, x)
  | 1 => do
    let emb ← inflateEll T lines ⟨y, x + w, y, y + h, x, x + w⟩ emb
    pure (emb, y + 1, x)
  | 2 => do
    let x ← sub_ x 1
    let emb ← inflateEll T lines ⟨y + h, x, y, y + h, x, x + w⟩ emb
    pure (emb, y, x)
  | 3 => do
    let emb ← inflateEll T lines ⟨y + h, x + w, y, y + h, x, x + w⟩ emb
    pure (emb, y, x)
  | 4 => do
    let x ← sub_ x 1
    pure (emb, y + 1, x)
  | 5 => pure (emb, y + 1, x)
  | 6 => do
    let x ← sub_ x 1
    pure (emb, y, x)
  | 7 => pure (emb, y, x)
  | _ => .error .thrown

/-- The search for the best cell (clique_cache.hpp 217-228): the score with its row and column. -/
def bestCell (mem : List Nat) (t : Tab) : B (Nat × Nat × Nat) :=
  ((List.range t.rows).flatMap fun y => (List.range t.cols).map fun x => (y, x)).foldlM (fun best p => do
    let s ← tabScore mem t p.1 p.2
    pure (if best.1 < s then (s, p.1, p.2) else best)) (0, 0, 0)

/-- The loop of `extract_solution` (clique_cache.hpp 231-235); `n` is the number of rounds left. -/
def extractLoop (T : Topo) (lines : List Byte) (W : Nat) (mem : List Nat) : Nat → List (List Nat) → Nat → Nat → Nat → B (List (List Nat))
  | 0, emb, y, x, c => do
    let (emb, _, _) ← inflateFirst T lines emb y x 0 (W - 1) c
    pure emb
  | i + 1, emb, y, x, c => do
    let (emb, y, x) ← inflateFirst T lines emb y x (i + 1) (W - 2 - i) c
    let t ← tabAt T W mem i
    let c ← tabCorners mem t y x
    extractLoop T lines W mem i emb y x c

/-- `extract_solution` (clique_cache.hpp 214-237): `none` for `false`. -/
def extractSolution (T : Topo) (lines : List Byte) (W : Nat) (mem : List Nat) : B (Option (List (List Nat))) := do
  let t ← tabAt T W mem (W - 1)
  let (s, y, x) ← bestCell mem t
  if s = 0 then pure none
  else do
    let c ← tabCorners mem t y x
    let emb ← extractLoop T lines W mem (W - 1) [] y x c
    pure (some emb)

/-- The clique that is found for a width. -/
def cliqueOf (T : Topo) (lines : List Byte) (check : Ell → Bool) (W : Nat) : B (Option (List (List Nat))) := do
  let mem ← cliqueCache T lines check W
  extractSolution T lines W mem

end Bus
end MM
