import Verif.Spec.Eden

/-! Model of the class `eden_processor` (minorminer/utils/polynomialembedder.py 67-764). `random.randint` and `random.shuffle` are parameters. -/

namespace MM
namespace Eden

open Spec.Eden (Qb Ell)

/-- Exceptions; `hang` is a loop that does not end. -/
inductive Err where
  | key
  | type
  | value
  | stop
  | hang
  | zeroDivision
deriving DecidableEq, Repr

/-- A processor: couplers and the dimensions of the Chimera graph (polynomialembedder.py 134-159). -/
structure Proc where
  edges : List (Qb × Qb)
  M : Nat
  N : Nat
  L : Nat
deriving DecidableEq, Repr

/-- `q in self` (polynomialembedder.py 166-169). -/
def Proc.has (P : Proc) (q : Qb) : Bool := P.edges.any fun e => decide (e.1 = q) || decide (e.2 = q)

/-- `q in self[p]` (polynomialembedder.py 161-164). -/
def Proc.joined (P : Proc) (p q : Qb) : Bool := P.edges.any fun e => decide (e.1 = p ∧ e.2 = q) || decide (e.1 = q ∧ e.2 = p)

/-- `range(a, b)`. -/
def upTo (a b : Int) : List Int := (List.range (b - a).toNat).map fun (i : Nat) => a + (i : Int)

/-- `range(a, b, -1)`. -/
def downTo (a b : Int) : List Int := (List.range (a - b).toNat).map fun (i : Nat) => a - (i : Int)

/-- One of the lines in `_compute_vline_scores` and `_compute_hline_scores` (polynomialembedder.py 202-214, 226-238): `laststart[k]` after step `y`, and the start points
whose score line `k` adds to in this step. `here` says that a qubit is there, `link y` that the qubits `y` and `y + 1` are coupled. The code has the loop over `k` inside the
loop over `y`; lines do not depend on each other. -/
def track (here link : Nat → Bool) : Nat → Option Nat × List Nat
  | 0 => if here 0 then (some 0, [0]) else (none, [])
  | y + 1 =>
    if here (y + 1) then
      match (track here link y).1 with
      | none => (some (y + 1), [y + 1])
      | some s => if link y then (some s, List.range' s (y + 2 - s)) else (some (y + 1), [])
    else (none, [])

/-- `vline_score` (polynomialembedder.py 177-184). -/
def Proc.vscore (P : Proc) (x ymin ymax : Int) : Except Err Nat :=
  if 0 ≤ x ∧ x < P.M ∧ 0 ≤ ymin ∧ ymin ≤ ymax ∧ ymax < P.N then
    .ok ((List.range P.L).countP fun (k : Nat) =>
      decide (ymin.toNat ∈ (track (fun y => P.has ⟨x, y, 1, k⟩) (fun y => P.joined ⟨x, y, 1, k⟩ ⟨x, (y + 1 : Nat), 1, k⟩) ymax.toNat).2))
  else .error .key

/-- `hline_score` (polynomialembedder.py 186-193). -/
def Proc.hscore (P : Proc) (y xmin xmax : Int) : Except Err Nat :=
  if 0 ≤ y ∧ y < P.N ∧ 0 ≤ xmin ∧ xmin ≤ xmax ∧ xmax < P.M then
    .ok ((List.range P.L).countP fun (k : Nat) =>
      decide (xmin.toNat ∈ (track (fun x => P.has ⟨x, y, 0, k⟩) (fun x => P.joined ⟨x, y, 0, k⟩ ⟨(x + 1 : Nat), y, 0, k⟩) xmax.toNat).2))
  else .error .key

/-- `_contains_line` (polynomialembedder.py 329-344). -/
def Proc.containsLine (P : Proc) (line : List Qb) : Bool := line.all P.has && (line.zip line.tail).all fun e => P.joined e.2 e.1

/-- `maximum_vline_bundle` (polynomialembedder.py 346-359). -/
def Proc.vbundle (P : Proc) (x0 y0 y1 : Int) : List (List Qb) :=
  let ys := if y0 < y1 then downTo y1 (y0 - 1) else upTo y1 (y0 + 1)
  ((List.range P.L).map fun (k : Nat) => ys.map fun y => (⟨x0, y, 1, k⟩ : Qb)).filter P.containsLine

/-- `maximum_hline_bundle` (polynomialembedder.py 361-373). -/
def Proc.hbundle (P : Proc) (y0 x0 x1 : Int) : List (List Qb) :=
  let xs := if x0 < x1 then upTo x0 (x1 + 1) else downTo x0 (x1 - 1)
  ((List.range P.L).map fun (k : Nat) => xs.map fun x => (⟨x, y0, 0, k⟩ : Qb)).filter P.containsLine

/-- `maximum_ell_bundle` (polynomialembedder.py 375-416). `mix` are the two calls of `shuffle`, horizontal lines first, the identity without `random_bundles`. -/
def Proc.bundle (P : Proc) (mix : Bool → List (List Qb) → List (List Qb)) (e : Ell) : List (List Qb) :=
  List.zipWith (fun h v => v ++ h) (mix true (P.hbundle e.y e.x e.x')) (mix false (P.vbundle e.x e.y e.y'))

/-- A rectangle `(xmin, xmax, ymin, ymax)`. -/
structure Rect where
  xmin : Int
  xmax : Int
  ymin : Int
  ymax : Int
deriving DecidableEq, Repr

/-- A value of `maxCWR`: `(score, ell, r, num)`. -/
structure Entry where
  score : Nat
  ell : Option Ell
  parent : Option Rect
  num : Nat
deriving DecidableEq, Repr

/-- `None` counts as zero (polynomialembedder.py 428-429). -/
def known : Option Nat → Nat
  | none => 0
  | some s => s

/-- `_combine_clique_scores` (polynomialembedder.py 418-436). -/
def Proc.combine (P : Proc) (rscore : Option Nat) (y0 xmin xmax x0 ymin ymax : Int) : Except Err Nat := do
  let h ← P.hscore y0 xmin xmax
  let v ← P.vscore x0 ymin ymax
  .ok (if v < h then known rscore + v else known rscore + h)

/-- `XY` (polynomialembedder.py 479-482): the ells, each with the rectangle that is left. -/
def options (N : Nat) (R : Rect) : List (Ell × Rect) :=
  [(⟨R.xmin, R.xmax, R.ymin - 1, R.ymax⟩, ⟨R.xmin + 1, R.xmax, R.ymin - 1, R.ymax⟩),
   (⟨R.xmin, R.xmax, R.ymax + 1, R.ymin⟩, ⟨R.xmin + 1, R.xmax, R.ymin, R.ymax + 1⟩),
   (⟨R.xmax, R.xmin, R.ymin - 1, R.ymax⟩, ⟨R.xmin, R.xmax - 1, R.ymin - 1, R.ymax⟩),
   (⟨R.xmax, R.xmin, R.ymax + 1, R.ymin⟩, ⟨R.xmin, R.xmax - 1, R.ymin, R.ymax + 1⟩)].filter
    fun o => decide (0 ≤ o.2.ymin ∧ o.2.ymin ≤ o.2.ymax ∧ o.2.ymax < N)

/-- `_accumulate_random` (polynomialembedder.py 67-115); `rnd i n` is call number `i` of `randint`, with bounds 1 and `n`. -/
def accumulate {β : Type} (rnd : Nat → Nat → Nat) (i count found : Nat) (old new : β) : Nat × β :=
  (count + found, if rnd i (count + found) ≤ found then new else old)

/-- Local variables of `maxCliqueWithRectangle`; `calls` counts the random numbers. -/
structure Choice where
  bestscore : Option Nat
  count : Nat
  best : Entry
  calls : Nat

/-- `maxCWR[r]`. -/
def find (D : List (Rect × Entry)) (r : Rect) : Option Entry := (D.find? fun e => decide (e.1 = r)).map Prod.snd

/-- `nr` (polynomialembedder.py 488-491). -/
def weight : Option Entry → Nat
  | none => 1
  | some e => e.num

/-- One round of the loop over `XY` (polynomialembedder.py 485-499). -/
def Proc.consider (P : Proc) (rnd : Nat → Nat → Nat) (R : Rect) (D : List (Rect × Entry)) (c : Choice) (o : Ell × Rect) : Except Err Choice := do
  let nr := weight (find D o.2)
  let score ← P.combine ((find D o.2).map Entry.score) o.1.y R.xmin R.xmax o.1.x o.2.ymin o.2.ymax
  let better := match c.bestscore with
    | none => true
    | some b => decide (b < score)
  let c := if better then { c with bestscore := some score, count := 0 } else c
  if c.bestscore = some score then
    let a := accumulate rnd c.calls c.count nr c.best ⟨score, some o.1, some o.2, nr⟩
    .ok { c with count := a.1, best := a.2, calls := c.calls + 1 }
  else .ok c

/-- `maxCliqueWithRectangle` (polynomialembedder.py 438-501). -/
def Proc.withRect (P : Proc) (rnd : Nat → Nat → Nat) (calls : Nat) (R : Rect) (D : List (Rect × Entry)) : Except Err Choice :=
  (options P.N R).foldlM (P.consider rnd R D) ⟨none, 0, ⟨0, none, none, 1⟩, calls⟩

/-- The rectangles in the order of the loops of `nativeCliqueEmbed` (polynomialembedder.py 530-536). -/
def rects (M N width : Nat) : List Rect :=
  (List.range (width + 2)).flatMap fun (w : Nat) =>
    let h : Int := width - w - 2
    (upTo 0 (N - h)).flatMap fun ymin => (upTo 0 (M - w)).map fun xmin => ⟨xmin, xmin + w, ymin, ymin + h⟩

/-- Local variables of `nativeCliqueEmbed`. -/
structure Search where
  table : List (Rect × Entry)
  maxscore : Option Nat
  count : Nat
  key : Option Rect
  calls : Nat

/-- One round of the loops of `nativeCliqueEmbed` (polynomialembedder.py 537-544). -/
def Proc.visit (P : Proc) (rnd : Nat → Nat → Nat) (S : Search) (R : Rect) : Except Err Search := do
  let c ← P.withRect rnd S.calls R S.table
  let better := match S.maxscore, c.bestscore with
    | none, _ => true
    | some m, some s => decide (m < s)
    | some _, none => false
  let S := { S with table := (R, c.best) :: S.table, calls := c.calls }
  let S := if better then { S with maxscore := c.bestscore, key := none, count := 0 } else S
  if S.maxscore = c.bestscore then
    let a := accumulate rnd S.calls S.count c.best.num S.key (some R)
    .ok { S with count := a.1, key := a.2, calls := S.calls + 1 }
  else .ok S

/-- The blocks that are read off the table (polynomialembedder.py 547-551). -/
def collect (D : List (Rect × Entry)) : Nat → Option Rect → Except Err (List Ell)
  | _, none => .ok []
  | fuel, some r =>
    match find D r with
    | none => .ok []
    | some e =>
      match fuel with
      | 0 => .error .hang
      | fuel + 1 => do
        let rest ← collect D fuel e.parent
        match e.ell with
        | none => .ok rest
        | some l => .ok (l :: rest)

/-- `nativeCliqueEmbed` (polynomialembedder.py 503-552). The loop at its end is bounded by a number of rounds that it does not reach. -/
def Proc.native (P : Proc) (rnd : Nat → Nat → Nat) (mix : Ell → Bool → List (List Qb) → List (List Qb)) (width : Nat) : Except Err (Option Nat × List (List Qb)) := do
  let S ← (rects P.M P.N width).foldlM (P.visit rnd) ⟨[], none, 0, none, 0⟩
  let es ← collect S.table (width + 3) S.key
  .ok (S.maxscore, es.flatMap fun e => P.bundle (mix e) e)

/-- What is random in calls for several widths. -/
structure Luck where
  rnd : Nat → Nat → Nat → Nat
  mix : Nat → Ell → Bool → List (List Qb) → List (List Qb)

/-- The loop of `largestNativeClique` (polynomialembedder.py 582-587). Numbers and `None` cannot be compared. -/
def Proc.improve (P : Proc) (K : Luck) (best : Option Nat × List (List Qb)) (w : Nat) : Except Err (Option Nat × List (List Qb)) := do
  let c ← P.native (K.rnd w) (K.mix w) w
  match best.1, c.1 with
  | none, _ => .ok c
  | some _, none => .error .type
  | some b, some s => if b < s then .ok c else .ok best

/-- `largestNativeClique` (polynomialembedder.py 553-587). -/
def Proc.largest (P : Proc) (K : Luck) (maxLength : Option Nat) : Except Err (Option Nat × List (List Qb)) :=
  let widths := match maxLength with
    | none => min P.M P.N + 1
    | some l => l
  (List.range widths).foldlM (P.improve K) (none, [])

/-- The loop of `tightestNativeClique` (polynomialembedder.py 609-612). -/
def Proc.tightestFrom (P : Proc) (K : Luck) (n : Nat) : List Nat → Except Err (Option Nat × List (List Qb))
  | [] => .ok (none, [])
  | w :: ws => do
    let c ← P.native (K.rnd w) (K.mix w) w
    if n ≤ c.2.length then .ok (c.1, c.2.take n) else P.tightestFrom K n ws

/-- `tightestNativeClique` (polynomialembedder.py 589-613). -/
def Proc.tightest (P : Proc) (K : Luck) (n : Nat) : Except Err (Option Nat × List (List Qb)) := P.tightestFrom K n (List.range' 1 (min P.M P.N))

end Eden
end MM
