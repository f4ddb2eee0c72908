import Verif.Eden.Lines

/-! Chains of blocks make cliques. -/

namespace MM
namespace Eden

open Spec.Eden (Qb Ell Joined Works HLine VLine hLines vLines LinesWhole CellsWhole Path Touch Clique)

variable {P : Proc}

/-- The calls of `shuffle` return their arguments in some order. -/
def Mixes (mix : Bool → List (List Qb) → List (List Qb)) : Prop := ∀ b l, (mix b l).Perm l

theorem mem_zipWith {α β γ : Type} {f : α → β → γ} {as : List α} {bs : List β} {c : γ} (h : c ∈ List.zipWith f as bs) : ∃ a ∈ as, ∃ b ∈ bs, c = f a b := by
  induction as generalizing bs with
  | nil => simp at h
  | cons a as ih =>
    cases bs with
    | nil => simp at h
    | cons b bs =>
      rw [List.zipWith_cons_cons, List.mem_cons] at h
      rcases h with h | h
      · exact ⟨a, List.mem_cons_self, b, List.mem_cons_self, h⟩
      · obtain ⟨a', ha, b', hb, e⟩ := ih h
        exact ⟨a', List.mem_cons_of_mem _ ha, b', List.mem_cons_of_mem _ hb, e⟩

theorem pairwise_zipWith {α β γ : Type} {f : α → β → γ} {as : List α} {bs : List β} {r : α → α → Prop} {s : β → β → Prop} {t : γ → γ → Prop}
    (ha : as.Pairwise r) (hb : bs.Pairwise s) (h : ∀ a ∈ as, ∀ a' ∈ as, ∀ b ∈ bs, ∀ b' ∈ bs, r a a' → s b b' → t (f a b) (f a' b')) :
    (List.zipWith f as bs).Pairwise t := by
  induction as generalizing bs with
  | nil => simp
  | cons a as ih =>
    cases bs with
    | nil => simp
    | cons b bs =>
      rw [List.zipWith_cons_cons, List.pairwise_cons]
      rw [List.pairwise_cons] at ha hb
      refine ⟨fun c hc => ?_, ih ha.2 hb.2 fun a' h1 a'' h2 b' h3 b'' h4 => h _ (List.mem_cons_of_mem _ h1) _ (List.mem_cons_of_mem _ h2) _ (List.mem_cons_of_mem _ h3) _
        (List.mem_cons_of_mem _ h4)⟩
      obtain ⟨a', ha', b', hb', rfl⟩ := mem_zipWith hc
      exact h _ List.mem_cons_self _ (List.mem_cons_of_mem _ ha') _ List.mem_cons_self _ (List.mem_cons_of_mem _ hb') (ha.1 _ ha') (hb.1 _ hb')

/-- A chain of a block. -/
theorem mem_bundle {mix : Bool → List (List Qb) → List (List Qb)} (hm : Mixes mix) {e : Ell} {c : List Qb} (h : c ∈ P.bundle mix e) :
    ∃ j k, c = (arm e.y' e.y).map (vq e.x j) ++ (arm e.x e.x').map (hq e.y k) ∧ HLine P.edges e.y (min e.x e.x') (max e.x e.x') k ∧
      VLine P.edges e.x (min e.y e.y') (max e.y e.y') j := by
  obtain ⟨a, ha, b, hb, rfl⟩ := mem_zipWith h
  obtain ⟨k, -, rfl, h1⟩ := mem_hbundle.mp ((hm _ _).mem_iff.mp ha)
  obtain ⟨j, -, rfl, h2⟩ := mem_vbundle.mp ((hm _ _).mem_iff.mp hb)
  exact ⟨j, k, rfl, h1, h2⟩

theorem bundle_length {mix : Bool → List (List Qb) → List (List Qb)} (hm : Mixes mix) (e : Ell) : (P.bundle mix e).length = e.size P.edges P.L := by
  unfold Proc.bundle Ell.size
  rw [List.length_zipWith, (hm _ _).length_eq, (hm _ _).length_eq, hbundle_length, vbundle_length]

theorem chain_length {mix : Bool → List (List Qb) → List (List Qb)} (hm : Mixes mix) {e : Ell} {c : List Qb} (h : c ∈ P.bundle mix e) : (c.length : Int) = e.len := by
  obtain ⟨j, k, rfl, -, -⟩ := mem_bundle hm h
  rw [List.length_append, List.length_map, List.length_map]
  push_cast
  rw [arm_length, arm_length]
  unfold Ell.len
  omega

theorem bundle_path {mix : Bool → List (List Qb) → List (List Qb)} (hm : Mixes mix) (hc : CellsWhole P.edges) {e : Ell} {c : List Qb} (h : c ∈ P.bundle mix e) :
    Path P.edges c := by
  obtain ⟨j, k, rfl, h1, h2⟩ := mem_bundle hm h
  have c1 := containsLine_iff.mp (containsLine_h (P := P) (a := e.x) (b := e.x').mpr h1)
  have c2 := containsLine_iff.mp (containsLine_v (P := P) (a := e.y') (b := e.y).mpr (by rw [min_comm, max_comm]; exact h2))
  refine ⟨fun hn => ?_, ?_, fun q hq => ?_, ?_⟩
  · have := (List.append_eq_nil_iff.mp hn).2
    have := congrArg List.length this
    rw [List.length_map, List.length_nil] at this
    have := arm_length e.x e.x'
    omega
  · rw [List.nodup_append]
    refine ⟨(arm_nodup _ _).map fun a b h => (by simpa [vq] using h), (arm_nodup _ _).map fun a b h => (by simpa [hq] using h), fun a ha b hb => ?_⟩
    obtain ⟨_, _, rfl⟩ := List.mem_map.mp ha
    obtain ⟨_, _, rfl⟩ := List.mem_map.mp hb
    intro h
    simpa [vq, Eden.hq] using congrArg Qb.u h
  · rcases List.mem_append.mp hq with h | h
    · exact c2.1 q h
    · exact c1.1 q h
  · rw [List.isChain_append]
    refine ⟨c2.2, c1.2, fun p hp q hq' => ?_⟩
    rw [List.getLast?_map, arm_last] at hp
    rw [List.head?_map, arm_head] at hq'
    simp only [Option.map_some, Option.mem_def, Option.some.injEq] at hp hq'
    subst hp hq'
    rw [joined_comm]
    exact hc _ _ _ _ (h1.1 _ (by omega) (by omega)) (h2.1 _ (by omega) (by omega))

theorem bundle_clique {mix : Bool → List (List Qb) → List (List Qb)} (hm : Mixes mix) (hc : CellsWhole P.edges) (e : Ell) : Clique P.edges (P.bundle mix e) := by
  have sym : ∀ {l l' : List (List Qb)}, l'.Perm l → (l.Pairwise fun c d => ∀ q ∈ c, q ∉ d) → l'.Pairwise fun c d => ∀ q ∈ c, q ∉ d := fun hp h =>
    (hp.pairwise_iff (fun {a b} h q hq hq' => h q hq' hq)).mpr h
  have p1 := sym (hm true _) (hbundle_pairwise (P := P) e.y e.x e.x')
  have p2 := sym (hm false _) (vbundle_pairwise (P := P) e.x e.y e.y')
  have both := pairwise_zipWith (f := fun h v : List Qb => v ++ h) (t := fun c d => (∀ q ∈ c, q ∉ d) ∧ Touch P.edges c d) p1 p2 ?_
  · exact ⟨fun c h => bundle_path hm hc h, both.imp fun h => h.1, both.imp fun h => h.2⟩
  · intro a ha a' ha' b hb b' hb' hr hs
    obtain ⟨k, -, rfl, h1⟩ := mem_hbundle.mp ((hm _ _).mem_iff.mp ha)
    obtain ⟨j, -, rfl, h2⟩ := mem_vbundle.mp ((hm _ _).mem_iff.mp hb)
    obtain ⟨k', -, rfl, h1'⟩ := mem_hbundle.mp ((hm _ _).mem_iff.mp ha')
    obtain ⟨j', -, rfl, h2'⟩ := mem_vbundle.mp ((hm _ _).mem_iff.mp hb')
    refine ⟨fun q hq hq' => ?_, ?_⟩
    · rcases List.mem_append.mp hq with h | h <;> rcases List.mem_append.mp hq' with h' | h'
      · exact hs q h h'
      · obtain ⟨_, _, rfl⟩ := List.mem_map.mp h
        obtain ⟨_, _, e⟩ := List.mem_map.mp h'
        simpa [vq, Eden.hq] using congrArg Qb.u e
      · obtain ⟨_, _, rfl⟩ := List.mem_map.mp h
        obtain ⟨_, _, e⟩ := List.mem_map.mp h'
        simpa [vq, Eden.hq] using congrArg Qb.u e
      · exact hr q h h'
    · refine ⟨hq e.y k e.x, List.mem_append_right _ (List.mem_map_of_mem (mem_arm.mpr (by omega))), vq e.x j' e.y,
        List.mem_append_left _ (List.mem_map_of_mem (mem_arm.mpr (by omega))), ?_⟩
      exact hc _ _ _ _ (h1.1 _ (by omega) (by omega)) (h2'.1 _ (by omega) (by omega))

/-- The second block has fewer columns and more rows. -/
structure Before (e f : Ell) : Prop where
  cols : ∀ c, f.InCols c → e.InCols c
  col : ¬ f.InCols e.x
  rows : ∀ r, e.InRows r → f.InRows r
  row : ¬ e.InRows f.y

theorem Before.of_next {e f : Ell} (h : e.Next f) : Before e f :=
  ⟨fun c hc => ((h.1 c).mp hc).1, fun hc => ((h.1 _).mp hc).2 rfl, fun r hr => (h.2.1 r).mpr (.inl hr), h.2.2⟩

theorem Before.trans {e f g : Ell} (h : Before e f) (h' : Before f g) : Before e g :=
  ⟨fun c hc => h.cols c (h'.cols c hc), fun hc => h.col (h'.cols _ hc), fun r hr => h'.rows r (h.rows r hr), fun hr => h'.row (h.rows _ hr)⟩

theorem inCols_corner (e : Ell) : e.InCols e.x := ⟨by omega, by omega⟩

theorem inRows_corner (e : Ell) : e.InRows e.y := ⟨by omega, by omega⟩

theorem before_meet {mix mix' : Bool → List (List Qb) → List (List Qb)} (hm : Mixes mix) (hm' : Mixes mix') (hc : CellsWhole P.edges) {e f : Ell} (h : Before e f)
    {c d : List Qb} (hcm : c ∈ P.bundle mix e) (hdm : d ∈ P.bundle mix' f) : (∀ q ∈ c, q ∉ d) ∧ Touch P.edges c d := by
  obtain ⟨j, k, rfl, h1, h2⟩ := mem_bundle hm hcm
  obtain ⟨j', k', rfl, h1', h2'⟩ := mem_bundle hm' hdm
  refine ⟨fun q hq hq' => ?_, ?_⟩
  · rcases List.mem_append.mp hq with h3 | h3 <;> rcases List.mem_append.mp hq' with h4 | h4
    · obtain ⟨_, _, rfl⟩ := List.mem_map.mp h3
      obtain ⟨_, _, e'⟩ := List.mem_map.mp h4
      have : f.x = e.x := congrArg Qb.x e'
      exact h.col (this ▸ inCols_corner f)
    · obtain ⟨_, _, rfl⟩ := List.mem_map.mp h3
      obtain ⟨_, _, e'⟩ := List.mem_map.mp h4
      simpa [vq, Eden.hq] using congrArg Qb.u e'
    · obtain ⟨_, _, rfl⟩ := List.mem_map.mp h3
      obtain ⟨_, _, e'⟩ := List.mem_map.mp h4
      simpa [vq, Eden.hq] using congrArg Qb.u e'
    · obtain ⟨_, _, rfl⟩ := List.mem_map.mp h3
      obtain ⟨_, _, e'⟩ := List.mem_map.mp h4
      have : f.y = e.y := congrArg Qb.y e'
      exact h.row (this ▸ inRows_corner e)
  · have c1 := h.cols _ (inCols_corner f)
    have r1 := h.rows _ (inRows_corner e)
    refine ⟨hq e.y k f.x, List.mem_append_right _ (List.mem_map_of_mem (mem_arm.mpr c1)), vq f.x j' e.y,
      List.mem_append_left _ (List.mem_map_of_mem (mem_arm.mpr (by rw [min_comm, max_comm]; exact r1))), ?_⟩
    exact hc _ _ _ _ (h1.1 _ c1.1 c1.2) (h2'.1 _ r1.1 r1.2)

/-- A sequence of blocks makes a clique. -/
theorem blocks_clique {mix : Ell → Bool → List (List Qb) → List (List Qb)} (hm : ∀ e, Mixes (mix e)) (hc : CellsWhole P.edges) {es : List Ell} (hes : es.IsChain Ell.Next) :
    Clique P.edges (es.flatMap fun e => P.bundle (mix e) e) := by
  have hp : es.Pairwise Before := by
    have : IsTrans Ell Before := ⟨fun _ _ _ => Before.trans⟩
    exact List.isChain_iff_pairwise.mp (hes.imp fun _ _ => Before.of_next)
  refine ⟨fun c h => ?_, ?_, ?_⟩
  · obtain ⟨e, -, h⟩ := List.mem_flatMap.mp h
    exact bundle_path (hm e) hc h
  · exact List.pairwise_flatMap.mpr ⟨fun e _ => (bundle_clique (hm e) hc e).disjoint, hp.imp fun h c hc' d hd => (before_meet (hm _) (hm _) hc h hc' hd).1⟩
  · exact List.pairwise_flatMap.mpr ⟨fun e _ => (bundle_clique (hm e) hc e).touch, hp.imp fun h c hc' d hd => (before_meet (hm _) (hm _) hc h hc' hd).2⟩

theorem blocks_length {mix : Ell → Bool → List (List Qb) → List (List Qb)} (hm : ∀ e, Mixes (mix e)) (es : List Ell) :
    (es.flatMap fun e => P.bundle (mix e) e).length = Spec.Eden.size P.edges P.L es := by
  rw [List.length_flatMap]
  unfold Spec.Eden.size
  congr 1
  exact List.map_congr_left fun e _ => bundle_length (hm e) e

end Eden
end MM
