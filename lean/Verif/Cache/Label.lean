import Verif.Spec.Names
import Verif.Cache.Wrapper

/-! Model of the labels of qubits in minorminer/busclique.pyx: `relabel` and `delabel`. Labels of another kind than the graph's, which the code would pass on unchanged if the graph has integer labels, raise an exception. -/

namespace MM
namespace Cache

open Lattice (Label Labels)

/-- Two converters of a `…_coordinates` object of dwave.graphs (external). -/
structure Coding where
  toLinear : List Int → Nat
  ofLinear : Nat → List Int

/-- `chimera_coordinates(rows, cols, tile)`, `pegasus_coordinates(rows)`, its converters of nice coordinates, and `zephyr_coordinates(rows)` (busclique.pyx 1062, 939, 831), of which the code passes these arguments only. -/
structure Converters where
  chimera : Nat → Nat → Nat → Coding
  pegasus : Nat → Coding
  nice : Nat → Coding
  zephyr : Nat → Coding

/-- The converters that `__cinit__` selects (busclique.pyx 833-844, 941-957, 1063-1074); `none` for integer labels. -/
def chooseCoding (K : Converters) : Bus.Topo → Labels → Except WErr (Option Coding)
  | _, .int => .ok none
  | .chimera m n t, .coordinate => .ok (some (K.chimera m n t))
  | .pegasus d _, .coordinate => .ok (some (K.pegasus d))
  | .zephyr d _, .coordinate => .ok (some (K.zephyr d))
  | .pegasus d _, .nice => .ok (some (K.nice d))
  | _, _ => .error .value

/-- One label converted to a number; a number cannot be unpacked, nor a tuple converted to `size_t` (`TypeError`). -/
def linear : Option Coding → Label → Except WErr Nat
  | none, .int n => .ok n
  | some C, .tuple l => .ok (C.toLinear l)
  | _, _ => .error .type

/-- One number converted to a label. -/
def label : Option Coding → Nat → Label
  | none, q => .int q
  | some C, q => .tuple (C.ofLinear q)

/-- `self.nodes` and `edges` (busclique.pyx 834-840, 942-953, 1064-1070). -/
def linearGraph (C : Option Coding) (nodes : List Label) (edges : List (Label × Label)) : Except WErr (List Nat × List (Nat × Nat)) := do
  let ns ← nodes.mapM (linear C)
  let es ← edges.mapM fun e => do
    let p ← linear C e.1
    let q ← linear C e.2
    pure (p, q)
  pure (ns, es)

/-- `self.relabel` (busclique.pyx 758-769). -/
def relabel {κ : Type} (C : Option Coding) (emb : Dict κ (List Nat)) : Dict κ (List Label) := emb.map fun p => (p.1, p.2.map (label C))

/-- The chains of `self.delabel(emb)` (busclique.pyx 758-769). -/
def delabel (C : Option Coding) (emb : List (List Label)) : Except WErr Emb := emb.mapM fun c => c.mapM (linear C)

/-- `find_clique_embedding` of the cache (busclique.pyx 572-580). -/
def findLabelled {κ : Type} [DecidableEq κ] (C : Option Coding) (c : Cliques) (nodes : List κ) : Except WErr (Dict κ (List Label)) := do
  let items ← ofCache (find c nodes)
  pure (relabel C (toDict items))

/-- `find_biclique_embedding` of the cache with some node on one of the sides (busclique.pyx 631-666). -/
def findBicliqueLabelled {κ : Type} [DecidableEq κ] (C : Option Coding) (c : Bicliques) (left right : List κ) : Except WErr (Dict κ (List Label)) := do
  let items ← ofCache (findBiclique c left right)
  pure (relabel C (toDict items))

/-- `insert_clique_embedding(…, direct=True, write_to_disk=False)` (busclique.pyx 327-342). -/
def insertLabelled (C : Option Coding) (c : Cliques) (emb : List (List Label)) : Except WErr Cliques := do
  let e ← delabel C emb
  ofCache (insertDirect c e)

/-- `update_clique_cache` (busclique.pyx 277-295). -/
def updateLabelled (C : Option Coding) (s : Store) (embs : List (List (List Label))) (write : Bool) : Except WErr Store := do
  let (s, c) := ensureBlank s
  let c ← embs.foldlM (insertLabelled C) c
  pure ⟨some c, if write then some c else s.disk⟩

end Cache
end MM
