import Verif.Bus.CoordInv
import Verif.Spec.Lattice

/-! Qubits as rows of fragments: what the three topologies have in common. -/

namespace MM
namespace Bus

open Lattice

namespace Topo

/-- Fragments per qubit. -/
def span : Topo → Nat
  | chimera _ _ _ => 1
  | pegasus _ _ => 6
  | zephyr _ _ => 2

/-- The first fragment of a qubit: orientation, line, number in the bundle, position. -/
def first : Topo → Nat → Bool × Nat × Nat × Nat
  | chimera _ n t, q =>
    let c := linearChimera n t q
    (c.2.2.1, if c.2.2.1 then c.1 else c.2.1, c.2.2.2, if c.2.2.1 then c.2.1 else c.1)
  | pegasus d off, q => pegasusFirst d off q
  | zephyr d t, q => zephyrFirst d t q

/-- Number of lines of an orientation. -/
def dimW (T : Topo) (u : Bool) : Nat := if u then T.dimY else T.dimX

/-- Number of positions in a line. -/
def dimZ (T : Topo) (u : Bool) : Nat := if u then T.dimX else T.dimY

/-- The qubit a fragment belongs to. -/
def own : Topo → Bool → Nat → Nat → Nat → Nat
  | T@(chimera _ _ _), u, w, k, z => T.frag u w z k
  | pegasus d off, u, w, k, z => pegasusLinear d u (w / 6) (2 * (w % 6) + k) ((z - off u (w % 6)) / 6)
  | zephyr d t, u, w, k, z => zephyrLinear d t u w k ((z - k % 2) / 2)

end Topo

/-- Fragment `(u, w, k, z)` belongs to qubit `q`. -/
structure FragOf (T : Topo) (q : Nat) (u : Bool) (w k z : Nat) : Prop where
  hu : (T.first q).1 = u
  hw : (T.first q).2.1 = w
  hk : (T.first q).2.2.1 = k
  ge : (T.first q).2.2.2 ≤ z
  lt : z < (T.first q).2.2.2 + T.span

theorem span_pos (T : Topo) : 0 < T.span := by cases T <;> simp [Topo.span]

theorem FragOf.first {T : Topo} {q : Nat} : FragOf T q (T.first q).1 (T.first q).2.1 (T.first q).2.2.1 (T.first q).2.2.2 :=
  ⟨rfl, rfl, rfl, Nat.le_refl _, by have := span_pos T; omega⟩

theorem chimeraNum_eq {n t y x k : Nat} {u : Bool} : chimeraNum n t y x (unum u) k = chimeraLinear n t y x u k := by
  unfold chimeraNum chimeraLinear; ring

theorem pegasusNum_eq {d w k z : Nat} {u : Bool} : pegasusNum d (unum u) w k z = pegasusLinear d u w k z := by
  unfold pegasusNum pegasusLinear linemajorLinear; ring

theorem zephyrNum_eq {d t w k z : Nat} {u : Bool} : zephyrNum d t (unum u) w k z = zephyrLinear d t u w k z := by
  unfold zephyrNum zephyrLinear linemajorLinear; ring

theorem isQubit_chimera {m n t q : Nat} (h : IsQubit (.chimera m n t) q) : q < t * (2 * (n * m)) := by
  have e : t * (2 * (n * m)) = 2 * t * m * n := by ring
  rw [e]; exact h

theorem isQubit_pegasus {d q : Nat} {off : Bool → Nat → Nat} (h : IsQubit (.pegasus d off) q) : q < (d - 1) * (12 * (d * 2)) := by
  have e : (d - 1) * (12 * (d * 2)) = 24 * d * (d - 1) := by ring
  rw [e]; exact h

theorem isQubit_zephyr {d t q : Nat} (h : IsQubit (.zephyr d t) q) : q < d * (2 * t * ((2 * d + 1) * 2)) := by
  have e : d * (2 * t * ((2 * d + 1) * 2)) = 4 * t * d * (2 * d + 1) := by ring
  rw [e]; exact h

theorem frag_bounds {T : Topo} {q : Nat} {u : Bool} {w k z : Nat} (hs : Supported T) (hq : IsQubit T q) (h : FragOf T q u w k z) :
    w < T.dimW u ∧ k < T.shore ∧ z < T.dimZ u := by
  cases T with
  | chimera m n t =>
    obtain ⟨hy, hx, hk⟩ := linearChimera_bounds (isQubit_chimera hq)
    obtain ⟨h1, h2, h3, h4, h5⟩ := h
    simp only [Topo.first, Topo.span, Topo.dimW, Topo.dimZ, Topo.dimX, Topo.dimY, Topo.shore] at *
    rw [← h1, ← h2, ← h3]
    generalize hc : linearChimera n t q = c at *
    obtain ⟨y, x, v, k'⟩ := c
    cases v <;> simp_all <;> omega
  | pegasus d off =>
    obtain ⟨hw, hk, hz⟩ := linearLinemajor_bounds (isQubit_pegasus hq)
    obtain ⟨h1, h2, h3, h4, h5⟩ := h
    simp only [Topo.first, Topo.span, Topo.dimW, Topo.dimZ, Topo.dimX, Topo.dimY, Topo.shore, pegasusFirst, pegasusCoordinates] at *
    generalize hc : linearLinemajor d 12 (d - 1) q = c at *
    obtain ⟨v, w', k', z'⟩ := c
    have := hs v (k' / 2)
    simp only at *
    refine ⟨?_, ?_, ?_⟩
    · cases u <;> simp <;> omega
    · omega
    · cases u <;> simp <;> omega
  | zephyr d t =>
    obtain ⟨hw, hk, hz⟩ := linearLinemajor_bounds (isQubit_zephyr hq)
    obtain ⟨h1, h2, h3, h4, h5⟩ := h
    simp only [Topo.first, Topo.span, Topo.dimW, Topo.dimZ, Topo.dimX, Topo.dimY, Topo.shore, zephyrFirst, zephyrCoordinates] at *
    generalize hc : linearLinemajor (2 * d + 1) (2 * t) d q = c at *
    obtain ⟨v, w', k', z'⟩ := c
    simp only at *
    refine ⟨?_, ?_, ?_⟩
    · cases u <;> simp <;> omega
    · omega
    · cases u <;> simp <;> omega

theorem shore_le {T : Topo} (hs : Supported T) : T.shore ≤ 8 := by
  cases T with
  | chimera m n t => exact hs
  | pegasus d off => simp [Topo.shore]
  | zephyr d t => simp only [Topo.shore]; have : t ≤ 4 := hs; omega

/-- The qubit of a fragment is found from the fragment. -/
theorem own_eq {T : Topo} {q : Nat} {u : Bool} {w k z : Nat} (hq : IsQubit T q) (h : FragOf T q u w k z) : T.own u w k z = q := by
  cases T with
  | chimera m n t =>
    obtain ⟨h1, h2, h3, h4, h5⟩ := h
    simp only [Topo.first, Topo.span, Topo.own, Topo.frag, Topo.dimX, Topo.shore] at *
    have e := chimeraLinear_chimera (dx := n) (t := t) (q := q)
    generalize hc : linearChimera n t q = c at *
    obtain ⟨y, x, v, k'⟩ := c
    simp only at *
    subst h1 h3
    cases v with
    | false =>
      simp only [Bool.false_eq_true, if_false] at *
      rw [← h2, show z = y by omega]; exact e
    | true =>
      simp only [if_true] at *
      rw [← h2, show z = x by omega]; exact e
  | pegasus d off =>
    obtain ⟨hw, hk, hz⟩ := linearLinemajor_bounds (isQubit_pegasus hq)
    have e := linemajorLinear_linemajor (isQubit_pegasus hq)
    obtain ⟨h1, h2, h3, h4, h5⟩ := h
    simp only [Topo.first, Topo.span, Topo.own, pegasusFirst, pegasusCoordinates, pegasusLinear] at *
    generalize hc : linearLinemajor d 12 (d - 1) q = c at *
    obtain ⟨v, w', k', z'⟩ := c
    simp only at *
    subst h1
    have a1 : w / 6 = w' := by omega
    have a2 : w % 6 = k' / 2 := by omega
    have a3 : 2 * (w % 6) + k = k' := by omega
    rw [a3, a1, a2, show (z - off v (k' / 2)) / 6 = z' by omega]
    exact e
  | zephyr d t =>
    have e := linemajorLinear_linemajor (isQubit_zephyr hq)
    obtain ⟨h1, h2, h3, h4, h5⟩ := h
    simp only [Topo.first, Topo.span, Topo.own, zephyrFirst, zephyrCoordinates, zephyrLinear] at *
    generalize hc : linearLinemajor (2 * d + 1) (2 * t) d q = c at *
    obtain ⟨v, w', k', z'⟩ := c
    simp only at *
    subst h1 h2 h3
    rw [show (z - k' % 2) / 2 = z' by omega]
    exact e

theorem frag_unique {T : Topo} {p q : Nat} {u : Bool} {w k z : Nat} (hp : IsQubit T p) (hq : IsQubit T q)
    (h : FragOf T p u w k z) (h' : FragOf T q u w k z) : p = q := by
  rw [← own_eq hp h, own_eq hq h']

end Bus
end MM
