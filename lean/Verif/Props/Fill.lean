import Verif.Graph.FillFind
import Verif.Core.Table
import Verif.Props.Demo
import Mathlib.Data.Int.Log

/-! C105: the limit on the number of chains sharing a target node. -/

namespace MM

open Scratch (Cfg)

variable {sort : List (List Nat) → List (List Nat)} {I : Input}

/-- The number of chains that use node `x`. -/
def Spec.sharers (cs : List (List Nat)) (x : Nat) : Nat := cs.countP (fun c => decide (x ∈ c))

/-- The number of initial chains that use node `x`. -/
def Spec.hinted (I : Input) (x : Nat) : Nat := I.initC.countP (fun kv => decide ((x : Int) ∈ kv.2))

/-- No edge of the source joins a variable with a fixed chain to one without. -/
def Spec.FixedApart (I : Input) : Prop :=
  ∀ u v, I.src.Edge u v → (∃ kv ∈ I.fixedC, kv.1 = (u : Int)) → ∃ kv ∈ I.fixedC, kv.1 = (v : Int)

/-- **C105 (partial).** The chains returned, overlapping or not, never use a target node more than `B`
times, if `B` is at least 1, at least the bound on fills and at least the number of initial chains
sharing a node. Missing: problems in which a variable without fixed chain has a neighbour with one (see
`C105_fixed_exceeds`); nodes of the fixed chains themselves, which are used once. -/
theorem C105_max_fill_partial (hs : SortOK sort) (hI : I.OK) (hr : I.Compatible) (ha : Spec.FixedApart I)
    {C : Cfg} {A : Params} {ro : Bool} {t : Tape} {r : Bool × List (List Nat)} {B : Nat} (hB : 1 ≤ B)
    (hA : A.bound ≤ B) (hi : ∀ x, Spec.hinted I x ≤ B) (h : findEmbedding sort C A ro I t = .ok r) {x : Nat}
    (hx : ∀ kv ∈ I.fixedC, (x : Int) ∉ kv.2) : Spec.sharers r.2 x ≤ B :=
  findEmbedding_fill hs hI hr ha hB hA hi h (by rintro ⟨kv, hkv, hm⟩; exact hx kv hkv hm)

theorem two_le_countP {α : Type} {pr : α → Bool} {l : List α} {i j : Nat} {a b : α} (hij : i < j) (ha : l[i]? = some a)
    (hb : l[j]? = some b) (pa : pr a = true) (pb : pr b = true) : 2 ≤ l.countP pr := by
  have h1 : 0 < (l.take j).countP pr := by
    rw [List.countP_pos_iff]
    exact ⟨a, List.mem_of_getElem? (i := i) (by rw [List.getElem?_take, if_pos hij]; exact ha), pa⟩
  have h2 : 0 < (l.drop j).countP pr := by
    rw [List.countP_pos_iff]
    exact ⟨b, List.mem_of_getElem? (i := 0) (by rw [List.getElem?_drop, Nat.add_zero]; exact hb), pb⟩
  have := List.countP_append (p := pr) (l₁ := l.take j) (l₂ := l.drop j)
  rw [List.take_append_drop] at this
  omega

/-- **C105, limit 1.** With a limit of 1, disjoint initial chains and no fixed chains, what is returned
is an embedding or, after a stop during the first pass, a list of empty chains. -/
theorem C105_max_fill_one (hs : SortOK sort) (hI : I.OK) (hr : I.Compatible) (hf : I.fixedC = [])
    {C : Cfg} {A : Params} {t : Tape} {r : Bool × List (List Nat)} (hA : A.bound ≤ 1)
    (hi : ∀ x, Spec.hinted I x ≤ 1) (h : findEmbedding sort C A true I t = .ok r) :
    r.1 = true ∧ Spec.Embeds I.src I.tgt r.2 ∨ r.1 = false ∧ ∀ c ∈ r.2, c = [] := by
  obtain ⟨p, l0, E, hfin⟩ := findEmbedding_final hs hI hr h
  obtain ⟨hlen, hcs⟩ := hfin.given (Or.inr rfl)
  cases hr1 : r.1 with
  | true =>
    obtain ⟨e1, e2, e3⟩ := hfin.yes hr1
    refine Or.inl ⟨rfl, ?_⟩
    have := hfin.rep.success hI e1 e2 e3 hlen hcs
    have hno : I.FixV = fun _ => False := by
      funext v; simp only [eq_iff_iff, iff_false]; rintro ⟨kv, hkv, _⟩; rw [hf] at hkv; simp at hkv
    rw [hno] at this
    exact this
  | false =>
    right
    refine ⟨rfl, ?_⟩
    rcases hfin.no hr1 with he | ⟨e1, _, q, hq, hfill⟩
    · intro c hc
      obtain ⟨u, hu⟩ := List.getElem?_of_mem hc
      have := hcs u c hu
      rw [he] at this
      exact handed_empty this
    · exfalso
      have hrep := hfin.rep
      have hqQ : q < l0.length := by rw [← hrep.hQ]; unfold Prob.Q; omega
      obtain ⟨x, hx⟩ := getElem?_lt hqQ
      obtain ⟨a, b, ha, hb, hab, h1, h2⟩ := two_of_cnt hfill
      obtain ⟨a1, a2⟩ := hrep.us a (by rw [← hrep.hN]; exact ha)
      obtain ⟨b1, b2⟩ := hrep.us b (by rw [← hrep.hN]; exact hb)
      have get : ∀ w, w < I.src.n → ∃ c, r.2[w]? = some c := fun w hw =>
        ⟨_, List.getElem?_eq_getElem (by rw [hlen]; exact hw)⟩
      obtain ⟨c, hc⟩ := get _ a1
      obtain ⟨d, hd⟩ := get _ b1
      have hxc : x ∈ c := ((hcs _ c hc).2 x).2 ⟨q, hx, by rw [a2]; exact h1⟩
      have hxd : x ∈ d := ((hcs _ d hd).2 x).2 ⟨q, hx, by rw [b2]; exact h2⟩
      have hne : p.unscrew a ≠ p.unscrew b := by intro hc; apply hab; rw [← a2, ← b2, hc]
      have hle : Spec.sharers r.2 x ≤ 1 := C105_max_fill_partial hs hI hr
        (fun u v _ h => by obtain ⟨kv, hkv, _⟩ := h; rw [hf] at hkv; simp at hkv)
        (by omega) (by omega) hi h (fun kv hkv => by rw [hf] at hkv; simp at hkv)
      unfold Spec.sharers at hle
      rcases Nat.lt_or_gt_of_ne hne with hlt | hlt
      · have := two_le_countP (pr := fun c => decide (x ∈ c)) hlt hc hd (by simpa using hxc) (by simpa using hxd)
        omega
      · have := two_le_countP (pr := fun c => decide (x ∈ c)) hlt hd hc (by simpa using hxd) (by simpa using hxc)
        omega

/-- **C105, the bound.** The bound on fills is `max_fill`, but at most 63 minus the number of bits of
the margin. -/
theorem C105_bound {margin : Nat} (hm : 1 ≤ margin) (maxFill : Int) :
    weightBound margin maxFill = min maxFill (63 - (Nat.clog 2 margin : Int)) := by
  have hfl : ⌊(63 : ℝ) - Real.logb 2 margin⌋ = 63 - (Nat.clog 2 margin : Int) := by
    have h1 : ⌈Real.logb 2 (margin : ℝ)⌉ = (Nat.clog 2 margin : Int) := by
      have := Real.ceil_logb_natCast (b := 2) (r := (margin : ℝ)) (by positivity)
      rw [Int.clog_natCast] at this
      exact_mod_cast this
    have h2 : ⌊(63 : ℝ) - Real.logb 2 margin⌋ = ⌊-Real.logb 2 (margin : ℝ)⌋ + 63 := by
      rw [← Int.floor_add_ofNat]; congr 1; ring
    rw [h2, Int.floor_neg, h1]; ring
  unfold weightBound
  rw [hfl]
  by_cases hc : (63 : ℝ) - Real.logb 2 margin < maxFill
  · rw [if_pos hc]
    have h3 : ((⌊(63 : ℝ) - Real.logb 2 margin⌋ : Int) : ℝ) < maxFill := lt_of_le_of_lt (Int.floor_le _) hc
    rw [hfl] at h3
    have : (63 : Int) - (Nat.clog 2 margin : Int) < maxFill := by exact_mod_cast h3
    omega
  · rw [if_neg hc]
    have h3 : maxFill ≤ ⌊(63 : ℝ) - Real.logb 2 margin⌋ := Int.le_floor.2 (by linarith [not_lt.1 hc])
    rw [hfl] at h3
    omega

/-- **C105, values above 63** are treated as 63, and no value raises the bound above what was asked
for. With a margin below `2 ^ 32` a limit of at most 31 is used as it is. -/
theorem C105_above_63 {margin : Nat} (hm : 1 ≤ margin) (maxFill : Int) :
    weightBound margin maxFill ≤ maxFill ∧ (63 ≤ maxFill → weightBound margin maxFill = weightBound margin 63) ∧
    (margin < 2 ^ 32 → maxFill ≤ 31 → weightBound margin maxFill = maxFill) := by
  refine ⟨?_, fun h => ?_, fun h1 h2 => ?_⟩
  · rw [C105_bound hm]; omega
  · rw [C105_bound hm, C105_bound hm]; omega
  · rw [C105_bound hm]
    have : Nat.clog 2 margin ≤ 32 := (Nat.clog_le_iff_le_pow (by omega)).2 (by omega)
    omega

/-- **C105 fails below 63.** Limits below 63 are changed as well, from a margin of 2 on: with 8
neighbours and 2048 target nodes 63 and 50 mean the same, 49. -/
theorem C105_below_63 : weightBound (8 * 2048) 63 = 49 ∧ weightBound (8 * 2048) 50 = 49 ∧
    weightBound (8 * 2048) 49 = 49 ∧ weightBound (8 * 2048) 48 = 48 := by
  have h : Nat.clog 2 (8 * 2048) = 14 := by
    rw [show 8 * 2048 = 2 ^ 14 by norm_num]; exact Nat.clog_pow 2 14 (by omega)
  refine ⟨?_, ?_, ?_, ?_⟩ <;> rw [C105_bound (by norm_num), h] <;> rfl

namespace Demo

/-- A star with its centre fixed where only one free node can be reached from. -/
def exit : Input :=
  { src := ⟨3, [(0, 1), (0, 2)]⟩, tgt := ⟨4, [(0, 1), (1, 2), (1, 3)]⟩, fixedC := [(0, [0])], initC := [], restrC := [] }

theorem exit_ok : exit.OK := Checked.ok (by decide)

/-- A limit of 1 and one attempt. -/
def limit1 : Params := { params with bound := 1, tries := 1 }

theorem exit_run : findEmbedding sortBySize cfg limit1 true exit tape0 = .ok (false, [[0], [3, 1], [1]]) := by
  decide +kernel

theorem triangle_run2 : findEmbedding sortBySize cfg { params with bound := 2 } true triangle tape0 =
    .ok (false, [[1], [2], [3, 2]]) := by decide +kernel

theorem path3_run1 : findEmbedding sortBySize cfg limit1 true path3 tape0 = .ok (true, [[2], [3], [4]]) := by
  decide +kernel

end Demo

/-- **C105 fails beside fixed chains.** With a limit of 1 the chains returned use a node twice: the
nodes next to a fixed chain are entered however full they are. -/
theorem C105_fixed_exceeds : ∃ (I : Input) (C : Cfg) (A : Params) (t : Tape) (r : Bool × List (List Nat)),
    I.OK ∧ I.Compatible ∧ A.bound = 1 ∧ I.initC = [] ∧ findEmbedding Demo.sortBySize C A true I t = .ok r ∧
    ∃ x : Nat, (∀ kv ∈ I.fixedC, (x : Int) ∉ kv.2) ∧ Spec.sharers r.2 x = 2 :=
  ⟨Demo.exit, Demo.cfg, Demo.limit1, Demo.tape0, _, Demo.exit_ok, Input.compatible_of_nil rfl, rfl, rfl, Demo.exit_run, 1,
    by decide, by decide⟩

/-- A limit of 2 that is reached. -/
example : Spec.sharers [[1], [2], [3, 2]] 2 = 2 ∧ Spec.sharers [[1], [2], [3, 2]] 2 ≤ 2 :=
  ⟨by decide, C105_max_fill_partial Demo.sortOK Demo.triangle_ok (Input.compatible_of_nil rfl)
    (fun _ _ _ h => by obtain ⟨_, hkv, _⟩ := h; simp [Demo.triangle] at hkv) (B := 2) (by omega) (by decide)
    (fun x => by simp [Spec.hinted, Demo.triangle]) Demo.triangle_run2 (by simp [Demo.triangle])⟩

example : Spec.Embeds Demo.path3.src Demo.path3.tgt [[2], [3], [4]] := by
  rcases C105_max_fill_one Demo.sortOK Demo.path3_ok (Input.compatible_of_nil rfl) rfl (A := Demo.limit1) (by decide)
    (fun x => by simp [Spec.hinted, Demo.path3]) Demo.path3_run1 with h | h
  · exact h.2
  · simp at h

end MM
