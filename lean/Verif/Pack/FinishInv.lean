import Verif.Pack.RunInv

/-! What the final packing of the rectangle packer returns. -/

namespace MM
namespace Pack

open Spec.Pack

theorem Apart.symm {a b : Placed} (h : Apart a b) : Apart b a := by
  unfold Apart at *
  omega

theorem takeWhile_done {done rest : List Rect} (h1 : ∀ r ∈ done, r.placed = true)
    (h2 : rest = [] ∨ ∃ r rs, rest = r :: rs ∧ r.placed = false) : (done ++ rest).takeWhile Rect.placed = done := by
  rw [List.takeWhile_append_of_pos h1]
  rcases h2 with rfl | ⟨r, rs, rfl, h⟩
  · simp
  · simp [h]

/-- The rectangle seen in the given orientation. -/
def view (turned : Bool) (r : Rect) : Rect := if turned then { r with x := r.y, y := r.x } else r

/-- The place of a rectangle in the given orientation after the coordinates are swapped. -/
def viewAt (turned : Bool) (r : Rect) : Placed := if turned then ⟨r.x, r.y, r.height, r.width⟩ else r.at_

theorem toInt_inj {a b : Int} (h0 : 0 ≤ a) (h1 : a < 2 ^ 31) (h2 : 0 ≤ b) (h3 : b < 2 ^ 31) (h : toInt a ≤ toInt b) : a ≤ b := by
  rwa [toInt_small h0 h1, toInt_small h2 h3] at h

/-- Sorting by index puts the rectangles in the order of the indices. -/
theorem sort_index {q : Qsort} (hq : Sorts q) {n : Nat} (hn : n ≤ 2 ^ 31) {D : List Rect}
    (hD : (D.map (·.index)).Perm (List.range n)) : (q indexCmp D).map (·.index) = List.range n := by
  obtain ⟨h1, h2⟩ := hq _ indexCmp_consistent D
  have hp : ((q indexCmp D).map (·.index)).Perm (List.range n) := (h1.map _).trans hD
  have hlt : ∀ r ∈ q indexCmp D, r.index < n := fun r hr =>
    List.mem_range.mp (hp.mem_iff.mp (List.mem_map_of_mem (f := fun r : Rect => r.index) hr))
  have hs : ((q indexCmp D).map (·.index)).Pairwise (· ≤ ·) := by
    rw [List.pairwise_map]
    refine List.Pairwise.imp_of_mem ?_ h2
    intro a b ha hb hab
    have := hlt a ha
    have := hlt b hb
    have := toInt_inj (by omega) (by omega) (by omega) (by omega) (indexCmp_le.mp hab)
    omega
  refine List.Perm.eq_of_pairwise (le := (· ≤ ·)) ?_ hs (by
    have := List.pairwise_lt_range (n := n)
    exact this.imp (fun h => Nat.le_of_lt h)) hp
  intro a b _ _ h1 h2
  omega

/-- What the final packing returns. -/
theorem finish_spec {q : Qsort} (hq : Sorts q) {sizes : List (Int × Int)} (hn : sizes.length ≤ 2 ^ 31)
    (hs : ∀ p ∈ sizes, 0 < p.1 ∧ 0 < p.2) {g : Grid} {t : RSet} {W H : Int} {turned : Bool} (hg : Sane g)
    (hsz : g.size = sizes.length + 1) (hW : 0 < W) (hH : 0 < H)
    (ht : t.rects.Perm (if turned then (sizes.zipIdx.map fresh).map Rect.turn else sizes.zipIdx.map fresh)) :
    ∃ done rest, ({ g with width := W, height := H } : Grid).clear.packAll t.rects = .ok (done ++ rest) ∧
      ((rest ≠ [] ∧ (∃ r ∈ rest, r.x = -1) ∧ ∃ l, finish q g t W H turned = .error (.impossible l)) ∨
      (rest = [] ∧ ∃ pos, finish q g t W H turned = .ok pos ∧ Packing sizes pos ∧
        ∀ r ∈ place sizes pos, r.x + r.w ≤ (if turned then H else W) ∧ r.y + r.h ≤ (if turned then W else H))) := by
  have hlen : t.rects.length = sizes.length := by
    rw [ht.length_eq]
    split <;> simp
  have orig : ∀ r ∈ t.rects, r.index < sizes.length ∧
      sizes[r.index]? = some (if turned then (r.height, r.width) else (r.width, r.height)) := by
    intro r hr
    have hr' := ht.mem_iff.mp hr
    have key : ∀ r ∈ sizes.zipIdx.map fresh, r.index < sizes.length ∧ sizes[r.index]? = some (r.width, r.height) := by
      intro r hr
      obtain ⟨⟨p, i⟩, hp, rfl⟩ := List.mem_map.mp hr
      have := List.mem_zipIdx_iff_getElem?.mp hp
      exact ⟨by
        obtain ⟨h, _⟩ := List.getElem?_eq_some_iff.mp this
        exact h, this⟩
    cases turned with
    | false => exact key r hr'
    | true =>
      obtain ⟨a, ha, rfl⟩ := List.mem_map.mp hr'
      exact key a ha
  have hidx : (t.rects.map (·.index)).Perm (List.range sizes.length) := by
    refine (ht.map _).trans ?_
    have : ∀ l : List (Int × Int), (l.zipIdx.map fresh).map (·.index) = List.range l.length := by
      intro l
      rw [List.map_map, List.range_eq_range', ← List.zipIdx_map_snd 0 l]
      rfl
    cases turned with
    | false => rw [if_neg (by simp), this]
    | true =>
      rw [if_pos rfl, List.map_map]
      have e : ((fun r : Rect => r.index) ∘ Rect.turn) = fun r => r.index := rfl
      rw [e, this]
  have hpos : ∀ r ∈ t.rects, Positive r := by
    intro r hr
    obtain ⟨h1, h2⟩ := orig r hr
    have := hs _ (List.mem_of_getElem? h2)
    unfold Positive
    cases turned <;> simp at this <;> omega
  obtain ⟨done, rest, k1, k2, k3, k4, k5⟩ := packAll_spec t.rects ({ g with width := W, height := H } : Grid).clear []
    (clear_inv (g := { g with width := W, height := H }) ⟨hg.cols, hg.rows, hg.pos⟩ hW hH) hpos
    (by show 1 ≤ _; simp) (by show 1 ≤ _; simp) (by
      show 0 + t.rects.length + 1 ≤ g.size
      omega)
  refine ⟨done, rest, k1, ?_⟩
  have hpk : g.pack t W H = .ok { t with rects := done ++ rest } := by
    unfold Grid.pack
    rw [if_neg (by omega), k1]
    rfl
  have hwd : ({ g with width := W, height := H } : Grid).clear.width = W := rfl
  have hht : ({ g with width := W, height := H } : Grid).clear.height = H := rfl
  rw [hwd, hht] at k4
  have hview : (if turned then ({ t with rects := done ++ rest } : RSet).transpose else { t with rects := done ++ rest }) =
      { t with rects := done.map (view turned) ++ rest.map (view turned) } := by
    rw [← List.map_append]
    cases turned with
    | false =>
      have : view false = id := by funext r; rfl
      rw [this, List.map_id]
      rfl
    | true => rfl
  have hpl : ∀ r ∈ done, r.placed = true := by
    intro r hr
    obtain ⟨a, b, _, _⟩ := k4 r hr
    unfold Rect.placed
    have e1 : (r.x == -1) = false := by simp; omega
    have e2 : (r.y == -1) = false := by simp; omega
    rw [e1, e2]; rfl
  have hvp : ∀ r : Rect, (view turned r).placed = r.placed := by
    intro r
    cases turned with
    | false => rfl
    | true =>
      show (!((r.y == -1) || (r.x == -1))) = !((r.x == -1) || (r.y == -1))
      rw [Bool.or_comm]
  have htake : (done.map (view turned) ++ rest.map (view turned)).takeWhile Rect.placed = done.map (view turned) := by
    refine takeWhile_done ?_ ?_
    · intro r hr
      obtain ⟨a, ha, rfl⟩ := List.mem_map.mp hr
      rw [hvp]
      exact hpl a ha
    · rcases k5 with rfl | ⟨r, rs, rfl, hx, hy⟩
      · exact Or.inl rfl
      · right
        refine ⟨_, _, rfl, ?_⟩
        rw [hvp]
        unfold Rect.placed
        rw [hx]
        rfl
  have hfin : finish q g t W H turned = if (done.map (view turned)).length ≠ (done ++ rest).length then
      .error (.impossible ((q indexCmp (done.map (view turned))).map fun r => (r.x, r.y)))
      else .ok ((q indexCmp (done.map (view turned))).map fun r => (r.x, r.y)) := by
    unfold finish
    rw [hpk]
    show RSet.positions q (if turned then _ else _) = _
    rw [hview]
    unfold RSet.positions
    simp only [htake]
    simp
  by_cases hr : rest = []
  · right
    subst hr
    rw [if_neg (by simp)] at hfin
    refine ⟨rfl, _, hfin, ?_⟩
    rw [List.append_nil] at k2
    have horig : ∀ r ∈ done, sizes[r.index]? = some (if turned then (r.height, r.width) else (r.width, r.height)) := by
      intro r hr
      have : r.key ∈ t.rects.map Rect.key := by
        rw [← k2]; exact List.mem_map_of_mem hr
      obtain ⟨a, ha, e⟩ := List.mem_map.mp this
      simp only [Rect.key, Prod.mk.injEq] at e
      have := (orig a ha).2
      rw [e.1, e.2.1, e.2.2.1] at this
      exact this
    have hdi : ((done.map (view turned)).map (·.index)).Perm (List.range sizes.length) := by
      have e : (done.map (view turned)).map (·.index) = t.rects.map (·.index) := by
        have e1 : ∀ l : List Rect, l.map (·.index) = (l.map Rect.key).map (fun k => k.2.2.1) := fun l => by
          rw [List.map_map]; rfl
        rw [List.map_map, e1 t.rects, ← k2, ← e1]
        refine List.map_congr_left (fun r _ => ?_)
        unfold view
        simp only [Function.comp]
        split <;> rfl
      rw [e]; exact hidx
    have hidx' := sort_index hq hn hdi
    have hperm := (hq _ indexCmp_consistent (done.map (view turned))).1
    generalize hE : q indexCmp (done.map (view turned)) = E at hidx' hperm
    have hElen : E.length = sizes.length := by
      have := congrArg List.length hidx'
      simpa using this
    -- the rectangles come back in the order of the sizes
    have hplace : place sizes (E.map fun r => (r.x, r.y)) = E.map (viewAt turned) := by
      apply List.ext_getElem
      · simp [place, hElen]
      · intro i h1 h2
        have hi : i < E.length := by simpa using h2
        have hmem := hperm.mem_iff.mp (List.getElem_mem hi)
        obtain ⟨a, ha, e⟩ := List.mem_map.mp hmem
        have hind : E[i].index = i := by
          have : (E.map (·.index))[i]'(by simpa using hi) = (List.range sizes.length)[i]'(by simpa [← hElen] using hi) := by
            simp only [hidx']
          simpa using this
        have hsz' : sizes[i]? = some (if turned then (E[i].height, E[i].width) else (E[i].width, E[i].height)) := by
          have h3 := horig a ha
          have : (view turned a).index = a.index ∧ (view turned a).width = a.width ∧ (view turned a).height = a.height := by
            unfold view; split <;> exact ⟨rfl, rfl, rfl⟩
          rw [e] at this
          rw [← this.1, ← this.2.1, ← this.2.2, hind] at h3
          exact h3
        obtain ⟨hi', hsz''⟩ := List.getElem?_eq_some_iff.mp hsz'
        simp only [place, List.getElem_zipWith, List.getElem_map, hsz'']
        unfold viewAt
        cases turned <;> rfl
    have hva : ∀ r ∈ E.map (viewAt turned), ∃ a ∈ done, r = viewAt turned (view turned a) := by
      intro r hr
      obtain ⟨b, hb, rfl⟩ := List.mem_map.mp hr
      obtain ⟨a, ha, rfl⟩ := List.mem_map.mp (hperm.mem_iff.mp hb)
      exact ⟨a, ha, rfl⟩
    refine ⟨⟨by simp [hElen], ?_, ?_⟩, ?_⟩
    · rw [hplace]
      intro r hr
      obtain ⟨a, ha, rfl⟩ := hva r hr
      obtain ⟨x1, x2, _, _⟩ := k4 a ha
      cases turned with
      | false => exact ⟨x1, x2⟩
      | true => exact ⟨x2, x1⟩
    · rw [hplace]
      refine (List.Perm.pairwise_iff (fun h => Apart.symm h) (hperm.map (viewAt turned))).mpr ?_
      rw [List.map_map, List.pairwise_map]
      rw [List.nil_append, List.pairwise_map] at k3
      refine k3.imp ?_
      intro a b hab
      cases turned with
      | false => exact hab
      | true =>
        simp only [Apart, Rect.at_, view, viewAt, Function.comp, if_true] at hab ⊢
        tauto
    · rw [hplace]
      intro r hr
      obtain ⟨a, ha, rfl⟩ := hva r hr
      obtain ⟨x1, x2, x3, x4⟩ := k4 a ha
      cases turned with
      | false => exact ⟨x3, x4⟩
      | true => exact ⟨x4, x3⟩
  · left
    have hx : ∃ r ∈ rest, r.x = -1 := by
      rcases k5 with rfl | ⟨r, rs, rfl, hx, hy⟩
      · exact absurd rfl hr
      · exact ⟨r, by simp, hx⟩
    refine ⟨hr, hx, (q indexCmp (done.map (view turned))).map fun r => (r.x, r.y), ?_⟩
    rw [hfin, if_pos]
    have : 0 < rest.length := List.length_pos_iff.mpr hr
    simp only [List.length_map, List.length_append]
    omega

end Pack
end MM
