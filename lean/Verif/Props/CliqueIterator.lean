import Verif.Bus.IterateAll
import Verif.Props.Bundles
import Verif.Props.BusDemo

/-! C126: the iterator over the largest cliques of a width. -/

namespace MM

open Bus Lattice Spec

/-- The chains of a sequence of nested rectangles, without the ells that fail the check. -/
def Spec.NestedClique (T : Topo) (mem : List Byte) (check : Ell → Bool) (W : Nat) (ys xs : Nat → Nat) (e : List (List Nat)) : Prop :=
  Nested T.dimY T.dimX W ys xs ∧ inflateAll T mem ((nestedElls W ys xs W).filter check) = .ok e

/-- No sequence of nested rectangles has more chains than `e`. -/
def Spec.MostChains (T : Topo) (mem : List Byte) (check : Ell → Bool) (W : Nat) (e : List (List Nat)) : Prop :=
  ∀ ys xs e', NestedClique T mem check W ys xs e' → e'.length ≤ e.length

section
variable {T : Topo} {W : Nat} {lines : List Byte} {mem : List Nat}
variable {check : Ell → Bool} {nodes : List Nat} {edges : List (Nat × Nat)} {C : Masks} {N E : Bool → Nat → Nat → Nat → Prop}

theorem Bus.nested_total (hG : WFGraph T nodes edges) (hC : Clean T nodes edges C N E) (hT : Table T C lines) (hF : Fits T W) {ys xs : Nat → Nat} {e : List (List Nat)}
    (h : NestedClique T lines check W ys xs e) : Walk T W (W - 1) (ys (W - 1)) (xs (W - 1)) (nestedElls W ys xs W) ∧ e.length = total T lines check (nestedElls W ys xs W) := by
  have h2 := hF.two
  have hw := nested_walk h.1 h2 (show W - 1 < W by omega)
  rw [show W - 1 + 1 = W by omega, if_pos rfl] at hw
  obtain ⟨css, c1, c2⟩ := made_all (check := check) hG hC hT (hw.inGrid (by omega))
  have := h.2
  rw [inflateAll_ok c1] at this
  cases this
  exact ⟨hw, c2⟩

end

/-- **C126**, the part that holds. Take a graph of one of the three families, a mask that is searched and a width of at least 2 that fits. The calls of
`next` on a new iterator return, one after the other, a list of embeddings and then always `false`; nothing undefined
happens. Each of them embeds a clique, comes from a sequence of nested rectangles, and no sequence has more chains. A sequence
with so many chains, whose last ell passes the check, is in the list if its last row is added above; or if it is added below and no other such sequence
that ends with the same rectangle has its last row added above. Missing: the others with the last row below, see `C126_missed`. -/
theorem C126_iterate_partial {T : Topo} {nodes : List Nat} {edges : List (Nat × Nat)} (hG : WFGraph T nodes edges) {bound : Nat} (hb : 0 < bound)
    {D D' : Draws} (hD : D.Perm) (hD' : D'.Perm) {l : List Masks} (hl : searched T bound D D' nodes edges = .ok l) {C : Masks} (hC : C ∈ l)
    (check : Ell → Bool) {W : Nat} (hW : 2 ≤ W) (hY : W ≤ T.dimY) (hX : W ≤ T.dimX) :
    ∃ (mem : List Byte) (out : List (List (List Nat))), lineMasks T C = .ok mem ∧ (∀ n, iterate T mem check W n = .ok ((out.map some ++ List.replicate n none).take n)) ∧
      (∀ e ∈ out, e ≠ [] ∧ CliqueEmbedding nodes edges e ∧ (∀ c ∈ e, c.Nodup) ∧ (∃ ys xs, NestedClique T mem check W ys xs e) ∧ MostChains T mem check W e) ∧
      ∀ ys xs e, NestedClique T mem check W ys xs e → e ≠ [] → MostChains T mem check W e → check (nestedEll W ys xs (W - 1)) = true →
        (ys (W - 1) + 1 = ys (W - 2) ∨ ∀ ys' xs' e', NestedClique T mem check W ys' xs' e' → e'.length = e.length → ys' (W - 1) = ys (W - 1) → xs' (W - 1) = xs (W - 1) →
          ys' (W - 1) = ys' (W - 2)) →
        e ∈ out := by
  obtain ⟨l', h1, _, h3⟩ := searched_ok hG hb hD hD'
  rw [hl] at h1; cases h1
  obtain ⟨N, E, hc⟩ := h3 C hC
  obtain ⟨lines, h4, h5⟩ := lineMasks_ok hc.sized
  have hF : Fits T W := ⟨hW, hY, hX⟩
  have hi : W - 1 < W := by omega
  obtain ⟨mem, m1, hd⟩ := cliqueCache_ok (check := check) (weight_ok hG hc h5) hF
  obtain ⟨s, b, b1, b0, b2, b3, b4, b5⟩ := iterStart_ok hF hd
  have hI : IterOK T W mem ⟨b, [], []⟩ := ⟨by simp [StackOK], b2⟩
  have hcome : toCome T W lines mem ⟨b, [], []⟩ = pendingBase T W lines mem b := rfl
  -- everything listed comes from a best walk
  have hsound : ∀ e ∈ pendingBase T W lines mem b, ∃ y x es css, Walk T W (W - 1) y x es ∧ List.Forall₂ (Made T lines nodes edges N E) (es.filter check) css ∧
      e = css.flatten ∧ total T lines check es = s := by
    intro e he
    obtain ⟨p, p1, p2⟩ := List.mem_flatMap.mp he
    obtain ⟨k, k1, k2⟩ := List.mem_flatMap.mp p2
    obtain ⟨q1, q2, q3, q4⟩ := b2 p p1
    have hk := List.mem_of_mem_take k1
    rw [q4] at hk
    obtain ⟨es, css, a1, a2, a3, a4⟩ := via_sound hG hc h5 hF hd hi q1 q2 hk k2
    exact ⟨_, _, _, css, a1, a2, a3, a4.trans (b4 p p1)⟩
  have htot : ∀ {es : List Ell} {css : List (List (List Nat))} {y x : Nat}, Walk T W (W - 1) y x es → List.Forall₂ (Made T lines nodes edges N E) (es.filter check) css →
      css.flatten.length = total T lines check es := by
    intro es css y x hw hm
    obtain ⟨css', c1, c2⟩ := made_all (check := check) hG hc h5 (hw.inGrid (by omega))
    have e1 := inflateAll_ok hm
    rw [inflateAll_ok c1] at e1
    rw [← c2]
    injection e1 with e1
    rw [e1]
  have hlen : ∀ e ∈ pendingBase T W lines mem b, e.length = s := by
    intro e he
    obtain ⟨y, x, es, css, a1, a2, rfl, a4⟩ := hsound e he
    rw [htot a1 a2, a4]
  have hbest : ∀ ys xs e', NestedClique T lines check W ys xs e' → e'.length ≤ s := by
    intro ys xs e' hn
    obtain ⟨w1, w2⟩ := nested_total hG hc h5 hF hn
    have hr := w1.range hF
    rw [w2]
    exact Nat.le_trans (walk_le hF hd w1) (b3 _ _ hr.2.1 hr.2.2)
  refine ⟨lines, (pendingBase T W lines mem b).filter (· ≠ []), h4, fun n => ?_, fun e he => ?_, fun ys xs e hn hne hlg hck hcase => ?_⟩
  · simp only [iterate, m1, b1, bind, Except.bind]
    rw [calls_ok hG hc h5 hF hd n hI, hcome]
    by_cases hs : s = 0
    · have hnil : ∀ e ∈ pendingBase T W lines mem b, e = [] := fun e he => List.length_eq_zero_iff.mp ((hlen e he).trans hs)
      have e1 : (pendingBase T W lines mem b).filter (· ≠ []) = [] := by
        rw [List.filter_eq_nil_iff]; intro e he; simp [hnil e he]
      have e2 : (pendingBase T W lines mem b).map (fun e => if e = [] then none else some e) = List.replicate (pendingBase T W lines mem b).length none := by
        rw [List.eq_replicate_iff]
        refine ⟨List.length_map _, fun a ha => ?_⟩
        obtain ⟨e, he, rfl⟩ := List.mem_map.mp ha
        rw [if_pos (hnil e he)]
      rw [e1, e2, ← List.replicate_add, List.map_nil, List.nil_append, List.take_replicate, List.take_replicate]
      congr 2
      omega
    · have hne : ∀ e ∈ pendingBase T W lines mem b, e ≠ [] := by
        intro e he hn
        have := hlen e he
        rw [hn] at this
        exact hs this.symm
      rw [List.filter_eq_self.2 (fun e he => by simpa using hne e he)]
      congr 3
      exact List.map_congr_left fun e he => if_neg (hne e he)
  · obtain ⟨he1, he2⟩ := List.mem_filter.mp he
    obtain ⟨y, x, es, css, a1, a2, a3, a4⟩ := hsound e he1
    have hsub : (es.filter check).Sublist es := List.filter_sublist
    have hcl := ells_clique hG hc (fun f hf => a1.inGrid (by omega) f (hsub.subset hf)) ((a1.meets (by omega)).sublist hsub)
      (List.Forall₂.imp (fun _ _ h => h.2) a2)
    rw [← a3] at hcl
    obtain ⟨ys, xs, n1, n2⟩ := walk_is_nested hW a1
    refine ⟨by simpa using he2, hcl.1, hcl.2, ⟨ys, xs, n1, ?_⟩, fun ys xs e' hn => ?_⟩
    · rw [← n2, inflateAll_ok a2, a3]
    · rw [hlen e he1]; exact hbest ys xs e' hn
  · rw [List.mem_filter]
    refine ⟨?_, by simpa using hne⟩
    obtain ⟨w1, w2⟩ := nested_total hG hc h5 hF hn
    have hr := w1.range hF
    -- the best score is that of the sequence
    have hes : e.length = s := by
      refine Nat.le_antisymm (hbest ys xs e hn) ?_
      obtain ⟨p, hp⟩ := List.exists_mem_of_ne_nil b b0
      obtain ⟨q1, q2, _⟩ := b2 p hp
      obtain ⟨v, hv⟩ := cell_some hd hi q1 q2
      obtain ⟨es, css, c1, c2, c3, _⟩ := extractLoop_ok hG hc h5 hF hd hi q1 q2 hv
      obtain ⟨ys', xs', n1, n2⟩ := walk_is_nested hW c1
      have hs := b4 p hp
      simp only [scoreOf, hv] at hs
      rw [← hs, ← c3]
      exact hlg ys' xs' _ ⟨n1, by rw [← n2]; exact inflateAll_ok c2⟩
    have hsc : total T lines check (nestedElls W ys xs W) = scoreOf T W mem (W - 1) (ys (W - 1)) (xs (W - 1)) := by
      have := walk_le hF hd w1
      have := b3 _ _ hr.2.1 hr.2.2
      omega
    obtain ⟨k, es', css, k1, k2, k3, k4, k5⟩ := via_complete hG hc h5 hF hd w1 hsc
    have hecss : e = css.flatten := by
      have := hn.2
      rw [inflateAll_ok k4] at this
      injection this with this
      exact this.symm
    obtain ⟨c, hcb⟩ := b5 _ _ hr.2.1 hr.2.2 (by rw [← hsc, ← w2, hes])
    obtain ⟨_, _, _, q4⟩ := b2 _ hcb
    dsimp only at q4
    have hodd : ∀ j ∈ members (cornerSet T W mem (W - 1) (ys (W - 1)) (xs (W - 1))), j % 2 = 1 := fun j hj => last_odd hF hd hr.2.1 hr.2.2 hj
    obtain ⟨m, rfl⟩ : ∃ m, W = m + 2 := ⟨W - 2, by omega⟩
    have hhead : nestedEll (m + 2) ys xs (m + 1) = ellN (m + 2) (m + 1) (ys (m + 1)) (backX (xs (m + 1)) k) (cornerOf k) := by
      rw [nestedElls_succ] at k2
      exact (List.cons.inj k2).1
    have hk4 : k < 4 := k3.2 (by rw [show m + 2 - 1 = m + 1 from rfl, ← hhead]; exact hck)
    have hk13 : k = 1 ∨ k = 3 := by have := hodd k k1; omega
    have htake : (members (cornerSet T (m + 2) mem (m + 1) (ys (m + 1)) (xs (m + 1)))).take 1 = [k] := by
      rcases hk13 with rfl | rfl
      · exact first_one _ hodd k1
      · have hyc : newRow ys (m + 1) = ys (m + 1) + (m + 1) := by
          have := congrArg Ell.yc hhead
          simpa [nestedEll, ellN, ellAt, cornerOf] using this
        rcases hcase with hup | hno
        · simp only [show m + 2 - 1 = m + 1 from rfl, show m + 2 - 2 = m from rfl] at hup
          simp only [newRow] at hyc
          rw [if_neg (by omega)] at hyc
          omega
        · refine first_three _ hodd (fun h1 => ?_) k1
          obtain ⟨e', he'⟩ := List.exists_mem_of_ne_nil _ (via_ne hF hd hi hr.2.1 hr.2.2 h1)
          obtain ⟨es2, css2, a1, a2, rfl, a4⟩ := via_sound hG hc h5 hF hd hi hr.2.1 hr.2.2 h1 he'
          obtain ⟨ys', xs', n1, n2⟩ := walk_is_nested hW a1
          have hhead' : ellN (m + 2) (m + 1) (ys (m + 1)) (backX (xs (m + 1)) 1) (cornerOf 1) = nestedEll (m + 2) ys' xs' (m + 1) := by
            rw [nestedElls_succ] at n2
            exact (List.cons.inj n2).1
          have hy0 := congrArg Ell.y0 hhead'
          have hx0 := congrArg Ell.x0 hhead'
          have hyc' := congrArg Ell.yc hhead'
          simp only [nestedEll, ellN, ellAt, cornerOf, backX, show (1 : Nat) % 4 = 1 from rfl] at hy0 hx0 hyc'
          have := hno ys' xs' _ ⟨n1, by rw [← n2]; exact inflateAll_ok a2⟩ (by rw [htot a1 a2, a4, ← hsc, ← w2]) hy0.symm hx0.symm
          simp only [show m + 2 - 1 = m + 1 from rfl, show m + 2 - 2 = m from rfl] at this
          simp only [newRow, if_pos this] at hyc'
          omega
    refine List.mem_flatMap.mpr ⟨_, hcb, ?_⟩
    dsimp only
    rw [q4]
    rw [show m + 2 - 1 = m + 1 from rfl, htake, hecss]
    exact List.mem_flatMap.mpr ⟨k, List.mem_singleton.mpr rfl, k5⟩

namespace Iterated

/-- `chimera_graph(2, 2, 1)`. -/
theorem small_wf : WFGraph (.chimera 2 2 1) (List.range 8) (chimeraEdges 2 2 1) := by
  refine ⟨show 1 ≤ 8 by decide, ?_, ?_, ?_⟩
  · intro q hq; rw [List.mem_range] at hq; show q < 2 * 2 * 1 * 2; omega
  · decide +kernel
  · intro e he
    exact .inl (chimeraEdges_coupled he)

/-- The masks searched. -/
def masks : List Masks :=
  match searched (.chimera 2 2 1) 64 revDraws revDraws (List.range 8) (chimeraEdges 2 2 1) with
  | .ok l => l
  | .error _ => []

/-- The calls on an iterator, for each of the masks, and the sequence that stays in row 0 and column 0 for its first row. -/
theorem calls : searched (.chimera 2 2 1) 64 revDraws revDraws (List.range 8) (chimeraEdges 2 2 1) = .ok masks ∧ masks.length = 1 ∧
    ∀ C ∈ masks, (match lineMasks (.chimera 2 2 1) C with
      | .ok mem => decide (iterate (.chimera 2 2 1) mem (fun _ => true) 2 3 = .ok [some [[2, 6, 3], [4, 5, 7]], some [[0, 4, 1], [6, 5, 7]], none] ∧
          inflateAll (.chimera 2 2 1) mem ((nestedElls 2 (fun _ => 0) (fun _ => 0) 2).filter fun _ => true) = .ok [[0, 4, 5], [2, 1, 3]])
      | .error _ => false) = true := by decide +kernel

theorem nested : Nested 2 2 2 (fun _ => 0) (fun _ => 0) :=
  ⟨fun i hi => by simpa using hi, fun i hi => by show 0 + (2 - 1 - i) < 2; omega, fun _ _ => .inl rfl, fun _ _ => .inl rfl⟩

end Iterated

/-- **C126** fails as stated: in `chimera_graph(2, 2, 1)` the iterator for width 2 returns two of the four cliques of two chains. The clique of nested rectangles with the
chains 0, 4, 5 and 2, 1, 3 is never returned: of the two corners noted for each last rectangle, only the first is looked at (clique_cache.hpp 311-314). -/
theorem C126_missed : ∃ (C : Masks) (mem : List Byte), C ∈ Iterated.masks ∧ lineMasks (.chimera 2 2 1) C = .ok mem ∧
    NestedClique (.chimera 2 2 1) mem (fun _ => true) 2 (fun _ => 0) (fun _ => 0) [[0, 4, 5], [2, 1, 3]] ∧
    MostChains (.chimera 2 2 1) mem (fun _ => true) 2 [[0, 4, 5], [2, 1, 3]] ∧
    ∀ n r, iterate (.chimera 2 2 1) mem (fun _ => true) 2 n = .ok r → some [[0, 4, 5], [2, 1, 3]] ∉ r := by
  obtain ⟨h1, h2, h3⟩ := Iterated.calls
  have hne : Iterated.masks ≠ [] := by intro e; rw [e] at h2; cases h2
  obtain ⟨C, hC⟩ := List.exists_mem_of_ne_nil _ hne
  obtain ⟨mem, out, a1, a2, a3, _⟩ := C126_iterate_partial Iterated.small_wf (bound := 64) (by decide) revDraws_perm revDraws_perm h1 hC (fun _ => true) (W := 2) (by decide)
    (show 2 ≤ 2 by decide) (show 2 ≤ 2 by decide)
  have hcalls := h3 C hC
  rw [a1] at hcalls
  obtain ⟨c1, c2⟩ := of_decide_eq_true hcalls
  rw [a2] at c1
  injection c1 with c1
  have hout : out = [[[2, 6, 3], [4, 5, 7]], [[0, 4, 1], [6, 5, 7]]] := by
    match out, c1 with
    | [], c1 => cases c1
    | [a], c1 => cases c1
    | [a, b], c1 => cases c1; rfl
    | a :: b :: c :: l, c1 => cases c1
  refine ⟨C, mem, hC, a1, ⟨Iterated.nested, c2⟩, fun ys xs e' hn => ?_, fun n r hr hmem => ?_⟩
  · exact (a3 [[2, 6, 3], [4, 5, 7]] (by rw [hout]; exact List.mem_cons_self)).2.2.2.2 ys xs e' hn
  · rw [a2] at hr
    injection hr with hr
    rw [← hr] at hmem
    have := List.mem_of_mem_take hmem
    rw [hout] at this
    rcases List.mem_append.mp this with h | h
    · revert h; decide
    · cases (List.mem_replicate.mp h).2

/-- The hypotheses of `C126_iterate_partial` are met by the same graph; the sequence that adds its last row above is found. -/
example : ∃ (C : Masks) (mem : List Byte), C ∈ Iterated.masks ∧ lineMasks (.chimera 2 2 1) C = .ok mem ∧ ∃ e r, iterate (.chimera 2 2 1) mem (fun _ => true) 2 3 = .ok r ∧ some e ∈ r ∧ e.length = 2 := by
  obtain ⟨h1, h2, h3⟩ := Iterated.calls
  have hne : Iterated.masks ≠ [] := by intro e; rw [e] at h2; cases h2
  obtain ⟨C, hC⟩ := List.exists_mem_of_ne_nil _ hne
  obtain ⟨mem, out, a1, a2, a3, _⟩ := C126_iterate_partial Iterated.small_wf (bound := 64) (by decide) revDraws_perm revDraws_perm h1 hC (fun _ => true) (W := 2) (by decide)
    (show 2 ≤ 2 by decide) (show 2 ≤ 2 by decide)
  have hcalls := h3 C hC
  rw [a1] at hcalls
  obtain ⟨c1, _⟩ := of_decide_eq_true hcalls
  exact ⟨C, mem, hC, a1, _, _, c1, List.mem_cons_self, rfl⟩

end MM
