import Verif.Bus.Bits
import Mathlib.Data.List.Sort

/-! Bytes as sets of numbers below 8. -/

namespace MM
namespace Bus

/-- The members of a byte in increasing order. -/
def members (m : Byte) : List Nat := (List.range 8).filter fun k => m.getLsbD k

theorem mem_members {m : Byte} {k : Nat} : k ∈ members m ↔ m.getLsbD k = true := by
  simp only [members, List.mem_filter, List.mem_range]
  refine ⟨fun h => h.2, fun h => ⟨?_, h⟩⟩
  by_contra hk
  rw [BitVec.getLsbD_of_ge _ _ (by omega)] at h
  cases h

theorem members_lt {m : Byte} {k : Nat} (h : k ∈ members m) : k < 8 := by
  simp only [members, List.mem_filter, List.mem_range] at h
  exact h.1

theorem members_nodup (m : Byte) : (members m).Nodup := List.nodup_range.filter _

theorem popcount_ok : ∀ m : Byte, popcount m = .ok (members m).length := by decide +kernel

theorem firstBit_zero : firstBit 0 = .ok 0 := by decide +kernel

theorem maskBit_ok : ∀ k, k < 8 → maskBit k = .ok (BitVec.twoPow 8 k) := by decide +kernel

theorem maskBit_ub {k : Nat} (h : 8 ≤ k) : maskBit k = .error .ub := by
  unfold maskBit at_
  rw [List.getElem?_eq_none (by simpa [maskBitTable] using h)]

/-- The first bit and what remains. -/
theorem step_ok : ∀ m : Byte, m ≠ 0 → ∃ k, k < 8 ∧ firstBit m = .ok k ∧ ∃ m', dropFirst m = .ok m' ∧ members m = k :: members m' := by
  decide +kernel

theorem members_zero : members 0 = [] := by decide

theorem members_eq_nil : ∀ m : Byte, members m = [] → m = 0 := by decide +kernel

theorem members_length_le (m : Byte) : (members m).length ≤ 8 := by
  have h := List.length_filter_le (fun k => m.getLsbD k) (List.range 8)
  rw [List.length_range] at h
  exact h

theorem bitsLoop_ok (fuel : Nat) (m : Byte) (h : (members m).length < fuel) : bitsLoop fuel m = .ok (members m) := by
  induction fuel generalizing m with
  | zero => omega
  | succ n ih =>
    unfold bitsLoop
    by_cases hm : m = 0
    · rw [if_pos hm, hm, members_zero]
    · rw [if_neg hm]
      obtain ⟨k, _, hk, m', hd, hmem⟩ := step_ok m hm
      rw [hmem] at h ⊢
      simp only [hk, hd, bind, Except.bind, ih m' (by simpa using h)]
      rfl

end Bus
end MM
