import Verif.Spec.Lattice
import Verif.Spec.Missing
import Verif.Spec.Nested

/-! The grid of cells on which the qubits of the three families lie, and straight lines of qubits. -/

namespace MM
namespace Lattice

open Bus (Topo)
open Spec (Coupler Nested newRow oldColumn)

/-- Qubit `q` lies on track `k` of column (`u = false`) or row (`u = true`) `w`, at position `z` of it. A Chimera qubit covers one cell, a Pegasus qubit six, a Zephyr qubit two. -/
def Lies : Topo → Nat → Bool → Nat → Nat → Nat → Prop
  | .chimera m n t, q, false, w, k, z => z < m ∧ w < n ∧ k < t ∧ q = chimeraNum n t z w 0 k
  | .chimera m n t, q, true, w, k, z => w < m ∧ z < n ∧ k < t ∧ q = chimeraNum n t w z 1 k
  | .pegasus d off, q, u, w, k, z => ∃ i j s, i < d ∧ j < 6 ∧ k < 2 ∧ s < d - 1 ∧ w = 6 * i + j ∧ q = pegasusNum d (if u then 1 else 0) i (2 * j + k) s ∧ 6 * s + off u j ≤ z ∧ z < 6 * s + off u j + 6
  | .zephyr d t, q, u, w, k, z => ∃ s, w < 2 * d + 1 ∧ k < 2 * t ∧ s < d ∧ q = zephyrNum d t (if u then 1 else 0) w k s ∧ 2 * s + k % 2 ≤ z ∧ z < 2 * s + k % 2 + 2

/-- Track `k` of column or row `w` is there from position `z0` to `z1`: qubits of the graph, coupled where one follows another. -/
structure Track (T : Topo) (nodes : List Nat) (edges : List (Nat × Nat)) (u : Bool) (w k z0 z1 : Nat) : Prop where
  qubits : ∀ z, z0 ≤ z → z ≤ z1 → ∃ q ∈ nodes, Lies T q u w k z
  joints : ∀ z, z0 ≤ z → z < z1 → ∀ p ∈ nodes, ∀ q ∈ nodes, Lies T p u w k z → Lies T q u w k (z + 1) → p = q ∨ Coupler edges p q

/-- Vertical lines (pairs of a column and a track) and horizontal lines (pairs of a row and a track) that go all the way through a rectangle of cells, each coupled to all lines it crosses. -/
structure Weave (T : Topo) (nodes : List Nat) (edges : List (Nat × Nat)) (y0 y1 x0 x1 : Nat) (vs hs : List (Nat × Nat)) : Prop where
  y : y0 ≤ y1
  x : x0 ≤ x1
  nodup : vs.Nodup ∧ hs.Nodup
  vertical : ∀ v ∈ vs, x0 ≤ v.1 ∧ v.1 ≤ x1 ∧ Track T nodes edges false v.1 v.2 y0 y1
  horizontal : ∀ h ∈ hs, y0 ≤ h.1 ∧ h.1 ≤ y1 ∧ Track T nodes edges true h.1 h.2 x0 x1
  coupled : ∀ v ∈ vs, ∀ h ∈ hs, ∀ p ∈ nodes, ∀ q ∈ nodes, Lies T p false v.1 v.2 h.1 → Lies T q true h.1 h.2 v.1 → Coupler edges p q

/-- Lines for the ells of a sequence of nested rectangles: for rectangle `i`, the tracks `vs i` of its old column, there for all its rows, and the tracks `hs i` of its new row, there for all its columns. Where two of these lines cross they are
coupled. -/
structure Stairs (T : Topo) (nodes : List Nat) (edges : List (Nat × Nat)) (W : Nat) (ys xs : Nat → Nat) (vs hs : Nat → List Nat) : Prop where
  nested : Nested T.dimY T.dimX W ys xs
  nodup : ∀ i < W, (vs i).Nodup ∧ (hs i).Nodup
  vertical : ∀ i < W, ∀ k ∈ vs i, Track T nodes edges false (oldColumn W xs i) k (ys i) (ys i + i)
  horizontal : ∀ i < W, ∀ k ∈ hs i, Track T nodes edges true (newRow ys i) k (xs i) (xs i + (W - 1 - i))
  coupled : ∀ i < W, ∀ j < W, ∀ v ∈ vs i, ∀ h ∈ hs j, ys i ≤ newRow ys j → newRow ys j ≤ ys i + i → xs j ≤ oldColumn W xs i → oldColumn W xs i ≤ xs j + (W - 1 - j) → ∀ p ∈ nodes, ∀ q ∈ nodes,
    Lies T p false (oldColumn W xs i) v (newRow ys j) → Lies T q true (newRow ys j) h (oldColumn W xs i) → Coupler edges p q

/-- How many ells these lines make: as many for each rectangle as there are of the fewer ones. -/
def ellCount (W : Nat) (vs hs : Nat → List Nat) : Nat := ((List.range W).map fun i => min (vs i).length (hs i).length).sum

/-- A graph of the family in which nothing is missing, except perhaps qubits that have no internal coupler in the full lattice (which `pegasus_graph` leaves out unless it is told otherwise). -/
structure Faultless (T : Topo) (nodes : List Nat) (edges : List (Nat × Nat)) : Prop where
  qubits : ∀ p q, Internal T p q → p ∈ nodes ∧ q ∈ nodes
  couplers : ∀ p ∈ nodes, ∀ q ∈ nodes, Coupled T p q → Coupler edges p q

end Lattice
end MM
