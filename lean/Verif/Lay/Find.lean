import Mathlib.Data.List.Dedup
import Verif.Lay.Layout
import Verif.Py.Parse

/-! Model of `layout.find_embedding` (minorminer/layout/__init__.py) and of the class `Placement` (minorminer/layout/placement.py 410-503). Layout functions,
placement functions, the clock and `minorminer.find_embedding` are parameters. -/

namespace MM
namespace Lay

open Py

variable {α : Type} [DecidableEq α]

/-- A graph argument: edges, the nodes if it is a graph object, and whether its family is chimera, pegasus or zephyr. -/
structure GraphArg (α : Type) where
  edges : List (α × α)
  nodes : Option (List α)
  family : Bool

/-- The nodes of `_parse_graph(G)` (layout.py 780-783). -/
def GraphArg.verts (G : GraphArg α) : List α := ((G.edges.flatMap fun e => [e.1, e.2]) ++ G.nodes.elim [] id).dedup

/-- What is passed on to `Layout`: `dim`, `center`, `scale`. -/
structure LayoutKw where
  dim : Option Int := none
  center : Option Pt := none
  scale : Option Rat := none

/-- What is passed on to `Placement`: `scale_ratio`, `subset_size`, `num_neighbors`. -/
structure PlaceKw where
  ratio : Option Rat := none
  subset : Option (Nat × Nat) := none
  num : Option Nat := none

/-- The keyword arguments. `rest` is what is left for `minorminer.find_embedding`, without the timeout. Initial chains and suspended chains among them
are `none` if not given. -/
structure Kwargs (α : Type) where
  lay : LayoutKw := {}
  place : PlaceKw := {}
  timeout : Option Rat := none
  fixed : List (α × List α) := []
  restr : List (α × List α) := []
  initial : Option (List (α × List α)) := none
  suspend : Option (List (α × List (List α))) := none

/-- A layout argument for one graph: a `Layout`, a mapping, or a function (or `None`, which stands for `p_norm`); a function is given as what
`_pack_components` or the function itself returns. -/
inductive LayoutSrc (α : Type) where
  | object (L : Layout α)
  | mapping (d : List (α × Pt))
  | func (f : GraphArg α → LayoutKw → Except Err (List (α × Pt)))

/-- The parameter `layout`: one value, or a tuple or list. -/
inductive LayoutArg (α : Type) where
  | one (s : LayoutSrc α)
  | many (l : List (LayoutSrc α))

/-- `Layout(G, layout=s, **layout_kwargs)` (layout.py 404-451). -/
def build (sorted : List α → List α) (G : GraphArg α) (s : LayoutSrc α) (kw : LayoutKw) : Except Err (Layout α) :=
  match s with
  | .object L => make (sorted G.verts) L.dict kw.dim kw.center kw.scale
  | .mapping d => make (sorted G.verts) d kw.dim kw.center kw.scale
  | .func f => do make (sorted G.verts) (← f G kw) kw.dim kw.center kw.scale

/-- The layout of S (__init__.py 165-169). -/
def sourceLayout (sorted : List α → List α) (S : GraphArg α) (s : LayoutSrc α) (kw : LayoutKw) : Except Err (Layout α) :=
  match s with
  | .object L => .ok L
  | s => build sorted S s kw

/-- The layout of T (__init__.py 172-180). `T.graph` does not exist if T is a list of edges. -/
def targetLayout (sorted : List α → List α) (graphLayout : GraphArg α → LayoutKw → Except Err (List (α × Pt))) (T : GraphArg α) (t : LayoutSrc α)
    (kw : LayoutKw) : Except Err (Layout α) :=
  match t with
  | .object L => .ok L
  | t =>
    match T.nodes with
    | none => .error .attribute
    | some _ => if T.family then build sorted T (.func graphLayout) kw else build sorted T t kw

/-- `_parse_layout_parameter` (__init__.py 151-182). -/
def parseLayouts (sorted : List α → List α) (graphLayout : GraphArg α → LayoutKw → Except Err (List (α × Pt))) (S T : GraphArg α) (arg : LayoutArg α)
    (kw : LayoutKw) : Except Err (Layout α × Layout α) := do
  let st ← (match arg with
    | .one s => .ok (s, s)
    | .many [s, t] => .ok (s, t)
    | .many _ => .error .value : Except Err (LayoutSrc α × LayoutSrc α))
  let LS ← sourceLayout sorted S st.1 kw
  let LT ← targetLayout sorted graphLayout T st.2 kw
  .ok (LS, LT)

/-- `_parse_layout` (placement.py 497-505): a copy. -/
def Layout.copy (L : Layout α) : Except Err (Layout α) := make L.verts L.dict none none none

/-- Scaling of S (placement.py 457-462). -/
def fitScale (S T : Layout α) (ratio : Option Rat) : Except Err (Layout α) :=
  if scaleOf T.array < scaleOf S.array then S.setScale (scaleOf T.array)
  else match ratio with
    | some r => if r = 0 then .ok S else S.setScale (r * scaleOf T.array)
    | none => .ok S

/-- The parameter `placement`: a mapping or a function. -/
inductive PlaceArg (α : Type) where
  | mapping (d : List (α × List α))
  | func (f : Layout α → Layout α → Option (Nat × Nat) → Option Nat → Except Err (List (α × List α)))

/-- The layouts a placement works on (placement.py 447-462). -/
def placementLayouts (S T : Layout α) (ratio : Option Rat) : Except Err (Layout α × Layout α) := do
  let S ← S.copy
  let T ← T.copy
  if dimOf S.array ≠ dimOf T.array then .error .value
  else .ok (← fitScale S T ratio, T)

/-- Constructor of `Placement` (placement.py 439-469). -/
def placement (S T : Layout α) (p : PlaceArg α) (kw : PlaceKw) : Except Err (List (α × List α)) := do
  let ST ← placementLayouts S T kw.ratio
  match p with
  | .mapping d => .ok d
  | .func f => f ST.1 ST.2 kw.subset kw.num

/-- `mm_hint_type`. -/
inductive Hint where
  | initial
  | suspend
  | other

/-- Failures: of layout and placement, or of `minorminer.find_embedding`. -/
inductive FindErr where
  | lay (e : Err)
  | py (e : PyErr)
deriving DecidableEq

/-- The time that is left (__init__.py 101-107). -/
def timeLeft (timeout : Option Rat) (elapsed : Rat) : Except Err (Option Rat) :=
  match timeout with
  | none => .ok none
  | some t => if t - elapsed ≤ 0 then .error .timeout else .ok (some (t - elapsed))

/-- Arguments of `minorminer.find_embedding` for the hint (__init__.py 110-118). A keyword given twice is a `TypeError`. -/
def hinted (S T : GraphArg α) (kw : Kwargs α) (p : List (α × List α)) : Hint → Except Err (Args α)
  | .initial =>
    match kw.initial with
    | some _ => .error .type
    | none => .ok ⟨S.edges, S.nodes, T.edges, T.nodes, kw.fixed, p, kw.restr, kw.suspend.elim [] id⟩
  | .suspend =>
    match kw.suspend with
    | some _ => .error .type
    | none => .ok ⟨S.edges, S.nodes, T.edges, T.nodes, kw.fixed, kw.initial.elim [] id, kw.restr, p.map fun e => (e.1, [e.2])⟩
  | .other => .error .value

/-- `Except.mapError` for the failures before the search. -/
def liftLay {β : Type} : Except Err β → Except FindErr β
  | .ok b => .ok b
  | .error e => .error (.lay e)

/-- `layout.find_embedding` (__init__.py 24-122). `elapsed` is the time that layout and placement took; `mm` is `minorminer.find_embedding` given its timeout. -/
def find (sorted : List α → List α) (graphLayout : GraphArg α → LayoutKw → Except Err (List (α × Pt)))
    (mm : Option Rat → Args α → Except PyErr (Result α)) (elapsed : Rat) (S T : GraphArg α) (layout : LayoutArg α) (p : PlaceArg α) (hint : Hint)
    (returnLayouts : Bool) (kw : Kwargs α) : Except FindErr (Result α × Option (Layout α × Layout α)) := do
  let ST ← liftLay (parseLayouts sorted graphLayout S T layout kw.lay)
  let d ← liftLay (placement ST.1 ST.2 p kw.place)
  let left ← liftLay (timeLeft kw.timeout elapsed)
  let a ← liftLay (hinted S T kw d hint)
  match mm left a with
  | .error e => .error (.py e)
  | .ok r => .ok (r, if returnLayouts then some ST else none)

end Lay
end MM
