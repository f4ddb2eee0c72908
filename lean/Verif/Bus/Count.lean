import Verif.Bus.NextInv
import Mathlib.Data.Nat.Bitwise
import Mathlib.Data.List.Nodup
import Mathlib.Data.List.OfFn

/-! Which masks are visited, and how many. -/

namespace MM
namespace Bus

open Lattice

/-- The lowest `n` bits of a number. -/
def bitsOf (n m : Nat) : List Bool := (List.range n).map m.testBit

/-- All numbers below `2 ^ n` by their bits. -/
def allChoices (n : Nat) : List (List Bool) := (List.range (2 ^ n)).map (bitsOf n)

theorem bitsOf_length (n m : Nat) : (bitsOf n m).length = n := by simp [bitsOf]

theorem bitsOf_inj {n a b : Nat} (ha : a < 2 ^ n) (hb : b < 2 ^ n) (h : bitsOf n a = bitsOf n b) : a = b := by
  apply Nat.eq_of_testBit_eq
  intro i
  by_cases hi : i < n
  · have := congrArg (fun l : List Bool => l[i]?) h
    simpa [bitsOf, hi] using this
  · rw [Nat.testBit_lt_two_pow (Nat.lt_of_lt_of_le ha (Nat.pow_le_pow_right (by omega) (by omega))),
      Nat.testBit_lt_two_pow (Nat.lt_of_lt_of_le hb (Nat.pow_le_pow_right (by omega) (by omega)))]

theorem allChoices_nodup (n : Nat) : (allChoices n).Nodup := by
  unfold allChoices
  refine (List.nodup_map_iff_inj_on List.nodup_range).mpr ?_
  intro a ha b hb h
  exact bitsOf_inj (List.mem_range.mp ha) (List.mem_range.mp hb) h

theorem exists_bits (c : List Bool) : ∃ m, m < 2 ^ c.length ∧ bitsOf c.length m = c := by
  refine ⟨(BitVec.ofBoolListLE c).toNat, (BitVec.ofBoolListLE c).isLt, ?_⟩
  apply List.ext_getElem?
  intro i
  unfold bitsOf
  rw [List.getElem?_map]
  by_cases hi : i < c.length
  · rw [List.getElem?_range hi, List.getElem?_eq_getElem hi]
    simp only [Option.map_some, Option.some.injEq]
    have := BitVec.getLsbD_ofBoolListLE (bs := c) (i := i)
    rw [BitVec.testBit_toNat, this]
    simp [List.getD_eq_getElem?_getD, hi]
  · rw [List.getElem?_eq_none (by simpa using hi), List.getElem?_eq_none (by simpa using hi)]
    rfl

theorem mem_allChoices {n : Nat} {c : List Bool} : c ∈ allChoices n ↔ c.length = n := by
  unfold allChoices
  simp only [List.mem_map, List.mem_range]
  constructor
  · rintro ⟨m, _, rfl⟩; exact bitsOf_length n m
  · rintro rfl; exact exists_bits c

/-- The chosen ends of the couplers of a list. -/
def chosen (L : List (Nat × Nat)) (c : List Bool) : List Nat := (L.zip c).map fun p => if p.2 then p.1.1 else p.1.2

theorem mem_pickFew {L : List (Nat × Nat)} {m q : Nat} : q ∈ pickFew L m ↔ q ∈ chosen L (bitsOf L.length m) := by
  unfold pickFew chosen
  simp only [List.mem_map, List.mem_reverse]
  constructor
  · rintro ⟨⟨e, i⟩, h, rfl⟩
    have hi := List.mem_zipIdx_iff_getElem?.mp h
    refine ⟨(e, m.testBit i), ?_, rfl⟩
    have hlt := (List.getElem?_eq_some_iff.mp hi).1
    apply List.mem_of_getElem? (i := i)
    rw [List.getElem?_zip_eq_some]
    exact ⟨hi, by simp [bitsOf, hlt]⟩
  · rintro ⟨⟨e, b⟩, h, rfl⟩
    obtain ⟨i, hi, he⟩ := List.getElem_of_mem h
    have := List.getElem?_eq_some_iff.mpr ⟨hi, he⟩
    rw [List.getElem?_zip_eq_some] at this
    refine ⟨(e, i), List.mem_zipIdx_iff_getElem?.mpr this.1, ?_⟩
    have hlt := (List.getElem?_eq_some_iff.mp this.1).1
    have h2 := this.2
    simp only [bitsOf, List.getElem?_map, List.getElem?_range hlt, Option.map_some, Option.some.injEq] at h2
    simp only [h2]

/-- The sets a mask without some fragments stands for. -/
def Without (T : Topo) (nodes : List Nat) (edges : List (Nat × Nat)) (C : Masks) (bad : List Nat) : Prop :=
  Rep T C (fun u w k z => Has T nodes u w k z ∧ T.frag u w z k ∉ bad)
    (fun u w k z => Joint T nodes edges u w k z ∧ T.frag u w z k ∉ bad ∧ ∀ z0, z = z0 + 1 → T.frag u w z0 k ∉ bad) (Missing T nodes edges)

theorem Without.congr {T : Topo} {nodes : List Nat} {edges : List (Nat × Nat)} {C : Masks} {bad bad' : List Nat} (h : Without T nodes edges C bad) (hb : ∀ q, q ∈ bad ↔ q ∈ bad') : Without T nodes edges C bad' := by
  refine Rep.congr h ?_ ?_ ?_ <;> intros <;> simp only [hb]

/-- How many masks there are. -/
def limit (n bound : Nat) : Nat := if n = 0 then 1 else if 2 ^ n ≤ bound then 2 ^ n else bound

theorem next_limit {T : Topo} {M : Masks} {bound : Nat} {D : Draws} {call : Nat} {s : State} {r : Option State} (h : next T M bound D call s = .ok r) :
    r.isSome = true ↔ s.maskNum < limit s.badEdges.length bound := by
  unfold next at h
  unfold limit
  split at h
  · rename_i h0
    rw [if_pos h0]
    split at h
    · cases h; rename_i h1; rw [h1]; simp
    · cases h; rename_i h1; simp; omega
  · rename_i h0
    rw [if_neg h0]
    split at h
    · rename_i h1
      rw [if_pos h1]
      split at h
      · rename_i h2
        simp only [bind, Except.bind] at h
        split at h
        · cases h
        · cases h; simp [h2]
      · cases h; rename_i h2; simp; omega
    · rename_i h1
      rw [if_neg h1]
      split at h
      · rename_i h2
        simp only [bind, Except.bind] at h
        split at h
        · cases h
        · cases h; simp [h2]
      · cases h; rename_i h2; simp; omega

theorem visits_length {T : Topo} {nodes : List Nat} {edges : List (Nat × Nat)} (hG : WFGraph T nodes edges) {M : Masks} (h : Rep T M (Has T nodes) (Joint T nodes edges) (Missing T nodes edges))
    {bound : Nat} {D : Draws} (hD : D.Perm) {fuel call : Nat} {s : State} {l : List State} (hs : BadList T nodes edges s.badEdges) (hm : s.maskNum ≤ limit s.badEdges.length bound)
    (hv : visits T M bound D fuel call s = .ok l) : l.length + s.maskNum = limit s.badEdges.length bound + 1 := by
  induction fuel generalizing call s l with
  | zero => cases hv
  | succ fuel ih =>
    obtain ⟨r, hr, hr'⟩ := next_ok hG h (bound := bound) hD call hs
    have hlim := next_limit hr
    unfold visits at hv
    simp only [hr, bind, Except.bind] at hv
    cases r with
    | none =>
      cases hv
      simp only [Option.isSome_none, Bool.false_eq_true, false_iff] at hlim
      simp only [List.length_cons, List.length_nil]
      omega
    | some s' =>
      simp only [Option.isSome_some, true_iff] at hlim
      obtain ⟨g, hn, hp, _⟩ := hr' s' rfl
      simp only at hv
      split at hv
      · cases hv
      · rename_i l' hl'
        cases hv
        have := ih (s := s') g.bad (by rw [hp.length_eq]; omega) hl'
        rw [hp.length_eq] at this
        simp only [List.length_cons]
        omega

/-- A state of the exhaustive enumeration. -/
structure FewState (T : Topo) (nodes : List Nat) (edges L : List (Nat × Nat)) (s : State) : Prop where
  bad : s.badEdges = L
  pos : 0 < s.maskNum
  child : Without T nodes edges s.child (chosen L (bitsOf L.length (s.maskNum - 1)))

theorem next_few {T : Topo} {nodes : List Nat} {edges : List (Nat × Nat)} (hG : WFGraph T nodes edges) {M : Masks} (h : Rep T M (Has T nodes) (Joint T nodes edges) (Missing T nodes edges))
    {bound : Nat} {D : Draws} {call : Nat} {s s' : State} {L : List (Nat × Nat)} (hL : BadList T nodes edges L) (hsL : s.badEdges = L) (hb : 2 ^ L.length ≤ bound)
    (hn : next T M bound D call s = .ok (some s')) : FewState T nodes edges L s' ∧ s'.maskNum = s.maskNum + 1 := by
  subst hsL
  unfold next at hn
  split at hn
  · rename_i h0
    split at hn
    · rename_i h1
      cases hn
      refine ⟨⟨rfl, by simp, ?_⟩, by simp [h1]⟩
      have hnil : s.badEdges = [] := List.length_eq_zero_iff.mp h0
      refine Rep.congr h ?_ ?_ ?_ <;> intros <;> simp [hnil, chosen]
    · cases hn
  · split at hn
    · obtain ⟨C, hc, hcl⟩ := childOf_clean hG h hL (bad := pickFew s.badEdges s.maskNum) (fun q hq => pickFew_sub hq) (fun e he => pickFew_cover he)
      simp only [hc, bind, Except.bind] at hn
      cases hn
      refine ⟨⟨rfl, by simp, ?_⟩, rfl⟩
      exact Without.congr (bad := pickFew s.badEdges s.maskNum) hcl.rep fun q => by simp [mem_pickFew]
    · cases hn

theorem visits_few {T : Topo} {nodes : List Nat} {edges : List (Nat × Nat)} (hG : WFGraph T nodes edges) {M : Masks} (h : Rep T M (Has T nodes) (Joint T nodes edges) (Missing T nodes edges))
    {bound : Nat} {D : Draws} {L : List (Nat × Nat)} (hL : BadList T nodes edges L) (hb : 2 ^ L.length ≤ bound) {fuel call : Nat} {s : State} {l : List State} (hs : FewState T nodes edges L s)
    (hv : visits T M bound D fuel call s = .ok l) : ∀ (i : Nat) s', l[i]? = some s' → Without T nodes edges s'.child (chosen L (bitsOf L.length (s.maskNum - 1 + i))) := by
  induction fuel generalizing call s l with
  | zero => cases hv
  | succ fuel ih =>
    unfold visits at hv
    simp only [bind, Except.bind] at hv
    split at hv
    · cases hv
    · rename_i r hr
      cases r with
      | none =>
        cases hv
        intro i s' hi
        cases i with
        | zero => cases hi; exact hs.child
        | succ i => simp at hi
      | some s2 =>
        simp only at hv
        split at hv
        · cases hv
        · rename_i l' hl'
          cases hv
          obtain ⟨f, hm⟩ := next_few hG h hL hs.bad hb hr
          intro i s' hi
          cases i with
          | zero => cases hi; exact hs.child
          | succ i =>
            have := ih f hl' i s' hi
            rw [hm] at this
            have hpos := hs.pos
            rw [show s.maskNum + 1 - 1 + i = s.maskNum - 1 + (i + 1) by omega] at this
            exact this

theorem searched_length {T : Topo} {nodes : List Nat} {edges : List (Nat × Nat)} (hG : WFGraph T nodes edges) {bound : Nat} (hb : 0 < bound) {D D' : Draws} (hD : D.Perm) (hD' : D'.Perm)
    {M : Masks} {L : List (Nat × Nat)} (hM : buildMasks T nodes edges = .ok M) (hL : badEdges T M.bad = .ok L) {l : List Masks} (hl : searched T bound D D' nodes edges = .ok l) :
    l.length = limit L.length bound := by
  obtain ⟨M', s, h1, r1, g1, m1, L', hL', hp1⟩ := start_ok hG hb hD
  have hM' : M' = M := by
    simp only [start, hM, hL, bind, Except.bind] at h1
    split at h1
    · cases h1
    · split at h1 <;> cases h1
      rfl
  subst hM'
  rw [hL] at hL'
  cases hL'
  obtain ⟨s', h2, -, g2, m2, hp2⟩ := reset_ok hG r1 hb hD' g1 (by omega)
  obtain ⟨l', h3, -, -⟩ := visits_ok hG r1 (bound := bound) hD' (bound + 2) 1 g2 (by omega) (by omega)
  simp only [searched, h1, h2, h3, bind, Except.bind] at hl
  cases hl
  have hlim : 1 ≤ limit s'.badEdges.length bound := by
    unfold limit; split
    · exact Nat.le_refl _
    · split
      · exact Nat.two_pow_pos _
      · exact hb
  have := visits_length hG r1 hD' g2.bad (by omega) h3
  rw [(hp2.trans hp1).length_eq, m2] at this
  rw [List.length_map]
  omega

theorem searched_few {T : Topo} {nodes : List Nat} {edges : List (Nat × Nat)} (hG : WFGraph T nodes edges) {bound : Nat} {D D' : Draws} (hD : D.Perm) (hD' : D'.Perm)
    {M : Masks} {L : List (Nat × Nat)} (hM : buildMasks T nodes edges = .ok M) (hL : badEdges T M.bad = .ok L) (hb : 2 ^ L.length ≤ bound) :
    ∃ l, searched T bound D D' nodes edges = .ok l ∧ l.length = 2 ^ L.length ∧ ∀ (i : Nat) C, l[i]? = some C → Without T nodes edges C (chosen L (bitsOf L.length i)) := by
  have hb0 : 0 < bound := Nat.lt_of_lt_of_le (Nat.two_pow_pos _) hb
  obtain ⟨l, hl, -, -⟩ := searched_ok hG hb0 hD hD'
  have hlen := searched_length hG hb0 hD hD' hM hL hl
  refine ⟨l, hl, ?_, ?_⟩
  · rw [hlen]; unfold limit; split
    · rename_i h; rw [h]; rfl
    · rfl
  obtain ⟨M', s, h1, r1, g1, m1, L', hL', hp1⟩ := start_ok hG hb0 hD
  have hMs : M' = M ∧ s.badEdges = L := by
    simp only [start, hM, hL, bind, Except.bind] at h1
    split at h1
    · cases h1
    · rename_i r hr
      cases r with
      | none => cases h1
      | some s2 =>
        cases h1
        refine ⟨rfl, ?_⟩
        obtain ⟨L2, hL2, hbl⟩ := badEdges_ok r1
        rw [hL] at hL2
        cases hL2
        exact (next_few hG r1 hbl rfl hb hr).1.bad
  obtain ⟨rfl, hsL⟩ := hMs
  obtain ⟨s', h2, hn2, g2, m2, hp2⟩ := reset_ok hG r1 hb0 hD' g1 (by omega)
  obtain ⟨l', h3, -, -⟩ := visits_ok hG r1 (bound := bound) hD' (bound + 2) 1 g2 (by omega) (by omega)
  simp only [searched, h1, h2, h3, bind, Except.bind] at hl
  cases hl
  have hbl : BadList T nodes edges L := hsL ▸ g1.bad
  obtain ⟨f, -⟩ := next_few hG r1 hbl (s := { s with maskNum := 0 }) hsL hb hn2
  intro i C hC
  rw [List.getElem?_map] at hC
  obtain ⟨s2, hs2, rfl⟩ := Option.map_eq_some_iff.mp hC
  have := visits_few hG r1 hbl hb f h3 i s2 hs2
  rw [m2] at this
  simpa using this

end Bus
end MM
