import Verif.Py.Options

/-! Renaming nodes: what the arguments and the outcome of a call look like with other names for source and target nodes. -/

namespace MM
namespace Py

variable {α β : Type}

/-- Chains with other names: `f` for the source nodes, `g` for the target nodes. -/
def renameChains (f g : α → β) (C : List (α × List α)) : List (β × List β) := C.map fun kc => (f kc.1, kc.2.map g)

/-- The arguments of a call with other names for the nodes, everything in the same order. -/
def Args.rename (f g : α → β) (a : Args α) : Args β where
  srcE := a.srcE.map fun e => (f e.1, f e.2)
  srcN := a.srcN.map fun l => l.map f
  tgtE := a.tgtE.map fun e => (g e.1, g e.2)
  tgtN := a.tgtN.map fun l => l.map g
  fixed := renameChains f g a.fixed
  initial := renameChains f g a.initial
  restr := renameChains f g a.restr
  suspend := a.suspend.map fun vb => (f vb.1, vb.2.map fun b => b.map g)

/-- A result with other names for the nodes. -/
def Result.rename (f g : α → β) (r : Result α) : Result β := ⟨renameChains f g r.dict, r.flag⟩

/-- The end of a call, with other names in the result if there is one. -/
def Ending.rename (f g : α → β) : Ending α → Ending β
  | .returns r => .returns (r.rename f g)
  | .raises e => .raises e
  | .dies => .dies
  | .undefined => .undefined
  | .endless => .endless

end Py
end MM
