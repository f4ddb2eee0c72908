import Verif.Eden.Biclique
import Verif.Eden.Blocks

/-! Bicliques. -/

namespace MM
namespace Eden

open Spec.Eden (Qb Ell Joined Works HLine VLine hLines vLines LinesWhole CellsWhole Path Touch Biclique Box LexLe)

variable {P : Proc}

/-- The same rectangle. -/
def Rect.box (R : Rect) : Box := ⟨R.xmin, R.xmax, R.ymin, R.ymax⟩

theorem upTo_cons {a b : Int} (h : a < b) : upTo a b = a :: upTo (a + 1) b := by
  unfold upTo
  rw [show (b - a).toNat = (b - (a + 1)).toNat + 1 by omega, List.range_succ_eq_map, List.map_cons, List.map_map]
  congr 1
  · simp
  · refine List.map_congr_left fun i _ => ?_
    simp only [Function.comp_apply]
    push_cast
    omega

theorem upTo_nil {a b : Int} (h : b ≤ a) : upTo a b = [] := by
  unfold upTo
  rw [show (b - a).toNat = 0 by omega]
  rfl

theorem lines_eq (E : List (Qb × Qb)) (L : Nat) (R : Rect) :
    R.box.lines E L = (((upTo R.ymin (R.ymax + 1)).map fun y => hLines E L y R.xmin R.xmax).sum, ((upTo R.xmin (R.xmax + 1)).map fun x => vLines E L x R.ymin R.ymax).sum) := by
  unfold Box.lines Box.height Box.width Rect.box upTo
  rw [List.map_map, List.map_map]
  dsimp only
  rw [show R.ymax - R.ymin + 1 = R.ymax + 1 - R.ymin by omega, show R.xmax - R.xmin + 1 = R.xmax + 1 - R.xmin by omega]
  rfl

theorem sizeFrom_spec (fuel : Nat) (R : Rect) (hR : R.box.Inside P.M P.N) (hf : (R.xmax - R.xmin) + (R.ymax - R.ymin) < fuel) :
    ∃ s, P.sizeFrom fuel R = .ok s ∧ s.1 ≤ (R.box.lines P.edges P.L).1 ∧ s.2 ≤ (R.box.lines P.edges P.L).2 ∧ (LinesWhole P.edges → s = R.box.lines P.edges P.L) := by
  induction fuel generalizing R with
  | zero =>
    obtain ⟨h1, h2, h3, h4, h5, h6⟩ := hR
    unfold Rect.box at h2 h5
    dsimp only at h2 h5
    omega
  | succ fuel ih =>
    rw [lines_eq]
    obtain ⟨xmin, xmax, ymin, ymax⟩ := R
    obtain ⟨h1, h2, h3, h4, h5, h6⟩ := hR
    simp only [Rect.box] at h1 h2 h3 h4 h5 h6
    dsimp only at hf ⊢
    obtain ⟨h, a1, a2, a3⟩ := hscore_spec (P := P) (y := ymin) ⟨h4, by omega⟩ h1 h2 h3
    obtain ⟨v, b1, b2, b3⟩ := vscore_spec (P := P) (x := xmin) ⟨h1, by omega⟩ h4 h5 h6
    have rows : ∃ n, (if ymin < ymax then (do
        let s ← P.sizeFrom fuel ⟨xmin, xmax, ymin + 1, ymax⟩
        .ok (h + s.1)) else .ok h : Except Err Nat) = .ok n ∧ n ≤ ((upTo ymin (ymax + 1)).map fun y => hLines P.edges P.L y xmin xmax).sum ∧
        (LinesWhole P.edges → n = ((upTo ymin (ymax + 1)).map fun y => hLines P.edges P.L y xmin xmax).sum) := by
      rw [upTo_cons (by omega), List.map_cons, List.sum_cons]
      by_cases hy : ymin < ymax
      · obtain ⟨s, s1, s2, -, s4⟩ := ih ⟨xmin, xmax, ymin + 1, ymax⟩ ⟨h1, h2, h3, by simp only [Rect.box]; omega, by simp only [Rect.box]; omega, h6⟩ (by dsimp only; omega)
        rw [lines_eq] at s2 s4
        dsimp only at s2 s4
        simp only [if_pos hy, bind, Except.bind, s1]
        refine ⟨_, rfl, Nat.add_le_add a2 s2, fun hl => ?_⟩
        rw [a3 (.inr hl), s4 hl]
      · rw [if_neg hy]
        refine ⟨_, rfl, a2.trans (Nat.le_add_right _ _), fun hl => ?_⟩
        rw [upTo_nil (by omega), a3 (.inr hl)]
        rfl
    have cols : ∃ n, (if xmin < xmax then (do
        let s ← P.sizeFrom fuel ⟨xmin + 1, xmax, ymin, ymax⟩
        .ok (v + s.2)) else .ok v : Except Err Nat) = .ok n ∧ n ≤ ((upTo xmin (xmax + 1)).map fun x => vLines P.edges P.L x ymin ymax).sum ∧
        (LinesWhole P.edges → n = ((upTo xmin (xmax + 1)).map fun x => vLines P.edges P.L x ymin ymax).sum) := by
      rw [upTo_cons (by omega), List.map_cons, List.sum_cons]
      by_cases hx : xmin < xmax
      · obtain ⟨s, s1, -, s3, s4⟩ := ih ⟨xmin + 1, xmax, ymin, ymax⟩ ⟨by simp only [Rect.box]; omega, by simp only [Rect.box]; omega, h3, h4, h5, h6⟩ (by dsimp only; omega)
        rw [lines_eq] at s3 s4
        dsimp only at s3 s4
        simp only [if_pos hx, bind, Except.bind, s1]
        refine ⟨_, rfl, Nat.add_le_add b2 s3, fun hl => ?_⟩
        rw [b3 (.inr hl), s4 hl]
      · rw [if_neg hx]
        refine ⟨_, rfl, b2.trans (Nat.le_add_right _ _), fun hl => ?_⟩
        rw [upTo_nil (by omega), b3 (.inr hl)]
        rfl
    obtain ⟨n, n1, n2, n3⟩ := rows
    obtain ⟨k, k1, k2, k3⟩ := cols
    refine ⟨(n, k), ?_, n2, k2, fun hl => by rw [n3 hl, k3 hl]⟩
    unfold Proc.sizeFrom
    simp only [bind, Except.bind] at n1 k1 ⊢
    simp only [a1, b1, n1, k1]

theorem bicliqueSize_spec {R : Rect} (hR : R.box.Inside P.M P.N) :
    ∃ s, P.bicliqueSize R = .ok s ∧ s.1 ≤ (R.box.lines P.edges P.L).1 ∧ s.2 ≤ (R.box.lines P.edges P.L).2 ∧ (LinesWhole P.edges → s = R.box.lines P.edges P.L) := by
  refine sizeFrom_spec _ R hR ?_
  obtain ⟨h1, h2, h3, h4, h5, h6⟩ := hR
  simp only [Rect.box] at h1 h2 h3 h4 h5 h6
  push_cast
  omega

theorem biclique_length (R : Rect) : ((P.biclique R).1.length, (P.biclique R).2.length) = (if R.xmin ≤ R.xmax ∧ R.ymin ≤ R.ymax then R.box.lines P.edges P.L else
    ((P.biclique R).1.length, (P.biclique R).2.length)) := by
  split
  · rename_i h
    rw [lines_eq]
    unfold Proc.biclique
    rw [List.length_flatMap, List.length_flatMap]
    congr 2
    · refine List.map_congr_left fun y _ => ?_
      rw [hbundle_length, min_eq_left h.1, max_eq_right h.1]
    · refine List.map_congr_left fun x _ => ?_
      rw [vbundle_length, min_eq_left h.2, max_eq_right h.2]
  · rfl

theorem hline_path {y a b : Int} {k : Nat} (h : HLine P.edges y (min a b) (max a b) k) : Path P.edges ((arm a b).map (hq y k)) := by
  have c := containsLine_iff.mp (containsLine_h (P := P) (a := a) (b := b).mpr h)
  refine ⟨fun hn => ?_, (arm_nodup _ _).map fun a b h => (by simpa [hq] using h), c.1, c.2⟩
  have := congrArg List.length hn
  rw [List.length_map, List.length_nil] at this
  have := arm_length a b
  omega

theorem vline_path {x a b : Int} {k : Nat} (h : VLine P.edges x (min a b) (max a b) k) : Path P.edges ((arm a b).map (vq x k)) := by
  have c := containsLine_iff.mp (containsLine_v (P := P) (a := a) (b := b).mpr h)
  refine ⟨fun hn => ?_, (arm_nodup _ _).map fun a b h => (by simpa [vq] using h), c.1, c.2⟩
  have := congrArg List.length hn
  rw [List.length_map, List.length_nil] at this
  have := arm_length a b
  omega

theorem upTo_pairwise (a b : Int) : (upTo a b).Pairwise (· ≠ ·) := by
  unfold upTo
  rw [List.pairwise_map]
  exact List.pairwise_lt_range.imp fun h => by omega

theorem biclique_valid (hc : CellsWhole P.edges) (R : Rect) : Biclique P.edges (P.biclique R).1 (P.biclique R).2 := by
  unfold Proc.biclique
  refine ⟨fun c h => ?_, ?_, fun c hcm d hdm => ?_⟩
  · rcases List.mem_append.mp h with h | h
    · obtain ⟨y, -, h⟩ := List.mem_flatMap.mp h
      obtain ⟨k, -, rfl, hl⟩ := mem_hbundle.mp h
      exact hline_path hl
    · obtain ⟨x, -, h⟩ := List.mem_flatMap.mp h
      obtain ⟨k, -, rfl, hl⟩ := mem_vbundle.mp h
      exact vline_path (by rw [min_comm, max_comm]; exact hl)
  · refine List.pairwise_append.mpr ⟨List.pairwise_flatMap.mpr ⟨fun y _ => hbundle_pairwise _ _ _, (upTo_pairwise _ _).imp fun {y y'} hne c h d h' q hq hq' => ?_⟩,
      List.pairwise_flatMap.mpr ⟨fun y _ => vbundle_pairwise _ _ _, (upTo_pairwise _ _).imp fun {y y'} hne c h d h' q hq hq' => ?_⟩, fun c h d h' q hq hq' => ?_⟩
    · obtain ⟨k, -, rfl, -⟩ := mem_hbundle.mp h
      obtain ⟨k', -, rfl, -⟩ := mem_hbundle.mp h'
      obtain ⟨_, _, rfl⟩ := List.mem_map.mp hq
      obtain ⟨_, _, e⟩ := List.mem_map.mp hq'
      exact hne (congrArg Qb.y e).symm
    · obtain ⟨k, -, rfl, -⟩ := mem_vbundle.mp h
      obtain ⟨k', -, rfl, -⟩ := mem_vbundle.mp h'
      obtain ⟨_, _, rfl⟩ := List.mem_map.mp hq
      obtain ⟨_, _, e⟩ := List.mem_map.mp hq'
      exact hne (congrArg Qb.x e).symm
    · obtain ⟨y, -, h⟩ := List.mem_flatMap.mp h
      obtain ⟨x, -, h'⟩ := List.mem_flatMap.mp h'
      obtain ⟨k, -, rfl, -⟩ := mem_hbundle.mp h
      obtain ⟨k', -, rfl, -⟩ := mem_vbundle.mp h'
      obtain ⟨_, _, rfl⟩ := List.mem_map.mp hq
      obtain ⟨_, _, e⟩ := List.mem_map.mp hq'
      simpa [vq, Eden.hq] using congrArg Qb.u e
  · obtain ⟨y, hy, h⟩ := List.mem_flatMap.mp hcm
    obtain ⟨x, hx, h'⟩ := List.mem_flatMap.mp hdm
    obtain ⟨k, -, rfl, h1⟩ := mem_hbundle.mp h
    obtain ⟨k', -, rfl, h2⟩ := mem_vbundle.mp h'
    rw [mem_upTo] at hy hx
    have hx' : min R.xmin R.xmax ≤ x ∧ x ≤ max R.xmin R.xmax := by omega
    have hy' : min R.ymin R.ymax ≤ y ∧ y ≤ max R.ymin R.ymax := by omega
    exact ⟨hq y k x, List.mem_map_of_mem (mem_arm.mpr hx'), vq x k' y, List.mem_map_of_mem (mem_arm.mpr (by rw [min_comm, max_comm]; exact hy')),
      hc _ _ _ _ (h1.1 _ hx'.1 hx'.2) (h2.1 _ hy'.1 hy'.2)⟩

theorem biclique_lens (R : Rect) (hx : R.xmin ≤ R.xmax) (hy : R.ymin ≤ R.ymax) :
    (∀ c ∈ (P.biclique R).1, (c.length : Int) = R.box.width) ∧ ∀ c ∈ (P.biclique R).2, (c.length : Int) = R.box.height := by
  unfold Proc.biclique Box.width Box.height Rect.box
  refine ⟨fun c h => ?_, fun c h => ?_⟩
  · obtain ⟨y, -, h⟩ := List.mem_flatMap.mp h
    obtain ⟨k, -, rfl, h⟩ := mem_hbundle.mp h
    rw [List.length_map, arm_length]
    dsimp only
    omega
  · obtain ⟨y, -, h⟩ := List.mem_flatMap.mp h
    obtain ⟨k, -, rfl, h⟩ := mem_vbundle.mp h
    rw [List.length_map, arm_length]
    dsimp only
    omega

end Eden
end MM
