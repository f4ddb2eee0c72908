import Verif.Graph.Input
import Mathlib.Logic.Relation

/-! Specification of minor embeddings, in terms of plain edge lists and node lists. -/

namespace MM
namespace Spec

open Relation

/-- Any two nodes of `c` are joined by a path of edges inside `c`. -/
def ConnectedIn (g : IGraph) (c : List Nat) : Prop :=
  ∀ a ∈ c, ∀ b ∈ c, ReflTransGen (fun x y => y ∈ c ∧ g.Edge x y) a b

/-- Some edge of `g` joins a node of `c` with a node of `d`. -/
def Joined (g : IGraph) (c d : List Nat) : Prop := ∃ p ∈ c, ∃ q ∈ d, g.Edge p q

/-- `chains` (one list of target nodes for each source node) is a minor embedding of `src`
in `tgt`, leaving open whether the chains of the variables in `fx` are connected and
whether edges between two such variables are realised. -/
structure EmbedsUpTo (fx : Nat → Prop) (src tgt : IGraph) (chains : List (List Nat)) : Prop where
  size : chains.length = src.n
  nonempty : ∀ c ∈ chains, c ≠ []
  nodup : ∀ c ∈ chains, c.Nodup
  nodes : ∀ c ∈ chains, ∀ q ∈ c, q < tgt.n
  connected : ∀ u c, ¬ fx u → chains[u]? = some c → ConnectedIn tgt c
  disjoint : ∀ (u v : Nat) (c d : List Nat), u ≠ v → chains[u]? = some c → chains[v]? = some d → ∀ q ∈ c, q ∉ d
  edges : ∀ u v c d, ¬ (fx u ∧ fx v) → src.Edge u v → u ≠ v → chains[u]? = some c → chains[v]? = some d →
    Joined tgt c d

/-- `chains` is a minor embedding of `src` in `tgt`. -/
def Embeds (src tgt : IGraph) (chains : List (List Nat)) : Prop := EmbedsUpTo (fun _ => False) src tgt chains

end Spec
end MM
