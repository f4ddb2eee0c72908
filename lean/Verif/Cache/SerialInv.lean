import Verif.Cache.Serial
import Verif.Bus.EdgeInv

/-! What the serialization of a topology holds. -/

namespace MM
namespace Bus

open Lattice

theorem serialSize_eq (fs : List (List Byte)) : serialSize fs = fs.flatten.length := by
  induction fs with
  | nil => rfl
  | cons f fs ih => rw [serialSize, ih, List.flatten_cons, List.length_append]

theorem serialWrite_ok {fs : List (List Byte)} : ∀ {buf : List Byte} {at' : Nat}, at' + serialSize fs ≤ buf.length →
    serialWrite buf at' fs = .ok (buf.take at' ++ fs.flatten ++ buf.drop (at' + serialSize fs), serialSize fs) := by
  induction fs with
  | nil => intro buf at' _; simp [serialWrite, serialSize, pure, Except.pure]
  | cons f fs ih =>
    intro buf at' h
    rw [serialSize] at h
    simp only [serialWrite, memcpy]
    rw [if_pos (by omega)]
    simp only [pure, Except.pure, bind, Except.bind]
    have hlen : (buf.take at' ++ f ++ buf.drop (at' + f.length)).length = buf.length := by
      simp only [List.length_append, List.length_take, List.length_drop]; omega
    rw [ih (by rw [hlen]; omega)]
    have h1 : (buf.take at' ++ f ++ buf.drop (at' + f.length)).take (at' + f.length) = buf.take at' ++ f := by
      have : (buf.take at' ++ f).length = at' + f.length := by rw [List.length_append, List.length_take]; omega
      rw [List.take_append_of_le_length (by omega), List.take_of_length_le (by omega)]
    have h2 : (buf.take at' ++ f ++ buf.drop (at' + f.length)).drop (at' + f.length + serialSize fs) = buf.drop (at' + (f.length + serialSize fs)) := by
      have : (buf.take at' ++ f).length = at' + f.length := by rw [List.length_append, List.length_take]; omega
      rw [List.drop_append, List.drop_of_length_le (by omega), this, List.nil_append, List.drop_drop]
      congr 1; omega
    rw [h1, h2]
    simp only [serialSize, List.flatten_cons, List.append_assoc]

theorem identifier_ok {junk : Nat → List Byte} (hj : ∀ n, (junk n).length = n) (T : Topo) (seed : BitVec 64) (M : Masks) : identifier junk T seed M = .ok (serialFields T seed M).flatten := by
  have := serialWrite_ok (fs := serialFields T seed M) (buf := junk (serialSize (serialFields T seed M))) (at' := 0) (by rw [hj]; omega)
  simp only [identifier, this, bind, Except.bind, pure, Except.pure]
  rw [List.drop_of_length_le (by rw [hj]; omega)]
  simp

theorem le64_length (x : BitVec 64) : (le64 x).length = 8 := by simp [le64]

theorem le64_inj {x y : BitVec 64} (h : le64 x = le64 y) : x = y := by
  apply BitVec.eq_of_getLsbD_eq
  intro i hi
  have h1 : (le64 x)[i / 8]? = (le64 y)[i / 8]? := by rw [h]
  simp only [le64, List.getElem?_map] at h1
  rw [List.getElem?_range (by omega)] at h1
  simp only [Option.map_some, Option.some.injEq] at h1
  have h2 := congrArg (fun b : Byte => b.getLsbD (i % 8)) h1
  simp only [BitVec.getLsbD_extractLsb'] at h2
  rw [show 8 * (i / 8) + i % 8 = i by omega] at h2
  simpa [show i % 8 < 8 by omega] using h2

theorem ofNat64_inj {a b : Nat} (ha : a < 2 ^ 64) (hb : b < 2 ^ 64) (h : le64 (BitVec.ofNat 64 a) = le64 (BitVec.ofNat 64 b)) : a = b := by
  have := congrArg BitVec.toNat (le64_inj h)
  rwa [BitVec.toNat_ofNat, BitVec.toNat_ofNat, Nat.mod_eq_of_lt ha, Nat.mod_eq_of_lt hb] at this

theorem append3_inj {α : Type} {a b c a' b' c' : List α} (h : a ++ (b ++ c) = a' ++ (b' ++ c')) (h1 : a.length = a'.length) (h2 : b.length = b'.length) : a = a' ∧ b = b' ∧ c = c' := by
  obtain ⟨e1, e⟩ := List.append_inj h h1
  obtain ⟨e2, e3⟩ := List.append_inj e h2
  exact ⟨e1, e2, e3⟩

/-- Dimensions, seed and masks can be read off the fields of Chimera and Zephyr. -/
theorem fields_inj {a b c a' b' c' : Nat} (ha : a < 2 ^ 64) (hb : b < 2 ^ 64) (hc : c < 2 ^ 64) (ha' : a' < 2 ^ 64) (hb' : b' < 2 ^ 64) (hc' : c' < 2 ^ 64) {s s' : BitVec 64} {M M' : Masks}
    (hn : M.node.length = a * (b * 2)) (he : M.edge.length = a * (b * 2)) (hn' : M'.node.length = a' * (b' * 2)) (he' : M'.edge.length = a' * (b' * 2))
    (h : [le64 (BitVec.ofNat 64 a), le64 (BitVec.ofNat 64 b), le64 (BitVec.ofNat 64 c), le64 s, M.node, M.edge, M.bad].flatten = [le64 (BitVec.ofNat 64 a'), le64 (BitVec.ofNat 64 b'), le64 (BitVec.ofNat 64 c'), le64 s', M'.node, M'.edge, M'.bad].flatten) :
    a = a' ∧ b = b' ∧ c = c' ∧ s = s' ∧ M = M' := by
  simp only [List.flatten_cons, List.flatten_nil, List.append_nil] at h
  obtain ⟨e1, h1⟩ := List.append_inj h (by rw [le64_length, le64_length])
  obtain ⟨e2, h2⟩ := List.append_inj h1 (by rw [le64_length, le64_length])
  obtain ⟨e3, h3⟩ := List.append_inj h2 (by rw [le64_length, le64_length])
  obtain ⟨e4, h4⟩ := List.append_inj h3 (by rw [le64_length, le64_length])
  have e1 := ofNat64_inj ha ha' e1
  have e2 := ofNat64_inj hb hb' e2
  have e3 := ofNat64_inj hc hc' e3
  have e4 := le64_inj e4
  subst e1 e2 e3 e4
  obtain ⟨f1, f2, f3⟩ := append3_inj h4 (by rw [hn, hn']) (by rw [he, he'])
  obtain ⟨n, e, b⟩ := M
  obtain ⟨n', e', b'⟩ := M'
  simp only at f1 f2 f3
  subst f1 f2 f3
  exact ⟨rfl, rfl, rfl, rfl, rfl⟩

theorem offsetBytes_length (off : Bool → Nat → Nat) : (offsetBytes off).length = 12 := by simp [offsetBytes]

theorem offsetBytes_inj {off off' : Bool → Nat → Nat} (h1 : ∀ u i, off u i < 256) (h2 : ∀ u i, off' u i < 256) (h : offsetBytes off = offsetBytes off') : ∀ u i, i < 6 → off u i = off' u i := by
  have key : ∀ {a b : Nat}, a < 256 → b < 256 → BitVec.ofNat 8 a = BitVec.ofNat 8 b → a = b := by
    intro a b ha hb h
    have := congrArg BitVec.toNat h
    rwa [BitVec.toNat_ofNat, BitVec.toNat_ofNat, Nat.mod_eq_of_lt ha, Nat.mod_eq_of_lt hb] at this
  simp only [offsetBytes, List.flatMap_cons, List.flatMap_nil, List.append_nil] at h
  obtain ⟨e1, e2⟩ := List.append_inj h (by simp)
  have hm : ∀ u, (List.range 6).map (fun i => BitVec.ofNat 8 (off u i)) = (List.range 6).map (fun i => BitVec.ofNat 8 (off' u i)) := by
    intro u; cases u
    · exact e1
    · exact e2
  intro u i hi
  have := congrArg (fun l => l[i]?) (hm u)
  simp only [List.getElem?_map, List.getElem?_range hi, Option.map_some, Option.some.injEq] at this
  exact key (h1 u i) (h2 u i) this

theorem pegasus_dim {d d' : Nat} (h : 12 + (6 * d * (6 * d * 2) + (6 * d * (6 * d * 2) + 6 * d * (6 * d * 2) * 2)) = 12 + (6 * d' * (6 * d' * 2) + (6 * d' * (6 * d' * 2) + 6 * d' * (6 * d' * 2) * 2))) : d = d' := by
  have h1 : 288 * (d * d) = 288 * (d' * d') := by
    have e : ∀ x : Nat, 12 + (6 * x * (6 * x * 2) + (6 * x * (6 * x * 2) + 6 * x * (6 * x * 2) * 2)) = 12 + 288 * (x * x) := by intro x; ring
    rw [e, e] at h; omega
  have h2 : d * d = d' * d' := by omega
  exact Nat.mul_self_inj.mp h2

end Bus
end MM
