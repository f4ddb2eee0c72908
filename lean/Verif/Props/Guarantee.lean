import Mathlib.Data.List.Perm.Subperm
import Verif.Bus.Few
import Mathlib.Data.List.Nodup
import Verif.Bus.Lies
import Verif.Props.RepeatBi

/-! C119: bicliques that are found. -/

namespace MM

open Bus Lattice Spec Disk

namespace Bus

section
variable {T : Topo} {nodes : List Nat} {edges : List (Nat × Nat)}

/-- With few missing couplers, pieces among which none are missing are all kept by one of the masks. -/
theorem fits_mask (hG : WFGraph T nodes edges) (hf : FewMissing T nodes edges 6) {D D' : Draws} (hD : D.Perm) (hD' : D'.Perm) {S : Bool → Nat → Nat → Nat → Prop}
    (hS : ∀ u w k z, S u w k z → ∃ q ∈ nodes, FragOf T q u w k z)
    (hx : ∀ x k y j, S false x k y → S true y j x → ∀ p ∈ nodes, ∀ q ∈ nodes, FragOf T p false x k y → FragOf T q true y j x → (p, q) ∈ edges ∨ (q, p) ∈ edges) :
    ∃ l, searched T 64 D D' nodes edges = .ok l ∧ ∃ C ∈ l, (∀ u w k z, S u w k z → Uses T C u w k z) ∧
      ∀ u w k z, S u w k z → S u w k (z + 1) → (∃ p ∈ nodes, ∃ q ∈ nodes, FragOf T p u w k z ∧ FragOf T q u w k (z + 1) ∧ (p = q ∨ (p, q) ∈ edges ∨ (q, p) ∈ edges)) → Continues T C u w k z := by
  classical
  obtain ⟨M, L, hM, hL, hmiss⟩ := C45_missing hG
  obtain ⟨L', hL', hlen⟩ := badEdges_length hG hf hM
  rw [hL] at hL'; cases hL'
  have h64 : 2 ^ L.length ≤ 64 := calc 2 ^ L.length ≤ 2 ^ 6 := Nat.pow_le_pow_right (by decide) hlen
    _ = 64 := rfl
  obtain ⟨l, h1, choices, _, hch, hll, h2⟩ := C45_few hG hD hD' hM hL h64
  have hb : ∀ {u w k z}, S u w k z → InR T u w z ∧ k < T.shore := fun h => Has.bounds hG.supported hG.qubits (hS _ _ _ _ h)
  have hb' : ∀ {q u w k z}, q ∈ nodes → FragOf T q u w k z → InR T u w z ∧ k < T.shore := fun hq h => Has.bounds hG.supported hG.qubits ⟨_, hq, h⟩
  refine ⟨l, h1, ?_⟩
  -- The first end goes unless it is wanted.
  let wanted : Nat → Prop := fun a => ∃ x y k, S false x k y ∧ a = T.frag false x y k
  let c : List Bool := L.map fun e => decide (¬wanted e.1)
  obtain ⟨i, hi, hic⟩ := List.getElem_of_mem ((hch c).mpr (by simp [c]))
  have hil : i < l.length := by omega
  refine ⟨l[i], List.getElem_mem hil, ?_⟩
  have hz : ∀ (L : List (Nat × Nat)), L.zip (L.map fun e => decide (¬wanted e.1)) = L.map fun e => (e, decide (¬wanted e.1)) := by
    intro L
    induction L with
    | nil => rfl
    | cons e L ih => rw [List.map_cons, List.zip_cons_cons, ih, List.map_cons]
  have hout : ∀ u w k z, S u w k z → T.frag u w z k ∉ (L.zip c).map fun p => if p.2 then p.1.1 else p.1.2 := by
    intro u w k z hs hin
    rw [hz, List.map_map, List.mem_map] at hin
    obtain ⟨⟨a, b⟩, he, hab⟩ := hin
    obtain ⟨x, k', y, j, ⟨p, hp, q, hq, fp, fq, n1, n2⟩, ha, hbb⟩ := (hmiss a b).mp he
    simp only [Function.comp, decide_eq_true_eq] at hab
    obtain ⟨r1, r2⟩ := hb hs
    by_cases hw : wanted a
    · rw [if_neg (not_not.mpr hw), hbb] at hab
      obtain ⟨s1, s2⟩ := hb' hq fq
      obtain ⟨rfl, rfl, rfl, rfl⟩ := frag_inj s1 s2 r1 r2 hab
      obtain ⟨x', y', k2, hs', ha'⟩ := hw
      obtain ⟨t1, t2⟩ := hb hs'
      obtain ⟨v1, v2⟩ := hb' hp fp
      rw [ha] at ha'
      obtain ⟨-, rfl, rfl, rfl⟩ := frag_inj v1 v2 t1 t2 ha'
      rcases hx _ _ _ _ hs' hs p hp q hq fp fq with h | h
      · exact n1 h
      · exact n2 h
    · rw [if_pos hw, ha] at hab
      obtain ⟨v1, v2⟩ := hb' hp fp
      obtain ⟨rfl, rfl, rfl, rfl⟩ := frag_inj v1 v2 r1 r2 hab
      exact hw ⟨_, _, _, hs, ha⟩
  have huse : ∀ u w k z, S u w k z → Uses T l[i] u w k z := by
    intro u w k z hs
    obtain ⟨⟨r1, r2⟩, _⟩ := hb hs
    refine ((h2 i l[i] c (List.getElem?_eq_getElem hil) (by rw [List.getElem?_eq_getElem hi, hic]) u w k z r1 r2).1).mpr ⟨hS _ _ _ _ hs, hout _ _ _ _ hs⟩
  refine ⟨huse, fun u w k z hs hs' hj => ?_⟩
  obtain ⟨⟨r1, r2⟩, _⟩ := hb hs
  obtain ⟨⟨r3, r4⟩, _⟩ := hb hs'
  exact ((h2 i l[i] c (List.getElem?_eq_getElem hil) (by rw [List.getElem?_eq_getElem hi, hic]) u w k z r1 r2).2 r4).mpr ⟨huse _ _ _ _ hs, huse _ _ _ _ hs', hj⟩

end

end Bus

/-- C119: if at most six internal couplers are missing, the search finds a biclique with at least as many chains on each side as there are lines in any weave of lines. -/
theorem C119_found {T : Topo} {nodes : List Nat} {edges : List (Nat × Nat)} (hG : WFGraph T nodes edges) (hf : FewMissing T nodes edges 6) {D D' : Draws} (hD : D.Perm) (hD' : D'.Perm)
    {y0 y1 x0 x1 : Nat} {vs hs : List (Nat × Nat)} (hg : Weave T nodes edges y0 y1 x0 x1 vs hs) (hv : vs ≠ []) (hh : hs ≠ []) :
    ∃ embs, bestBicliques T 64 D D' nodes edges = .ok embs ∧ ∃ s emb, (s, emb) ∈ embs ∧ vs.length ≤ s.1 ∧ hs.length ≤ s.2 := by
  have inR : ∀ {q u w k z}, Lies T q u w k z → z < T.dimZ u := fun h => (frag_bounds hG.supported (lies_frag h).1 (lies_frag h).2).2.2
  have hY : y1 < T.dimY := by
    obtain ⟨v, hv⟩ := List.exists_mem_of_ne_nil _ hv
    obtain ⟨q, _, h⟩ := (hg.vertical v hv).2.2.qubits y1 hg.y (Nat.le_refl _)
    exact inR h
  have hX : x1 < T.dimX := by
    obtain ⟨v, hv⟩ := List.exists_mem_of_ne_nil _ hh
    obtain ⟨q, _, h⟩ := (hg.horizontal v hv).2.2.qubits x1 hg.x (Nat.le_refl _)
    exact inR h
  let S : Bool → Nat → Nat → Nat → Prop := fun u w k z => if u then (w, k) ∈ hs ∧ x0 ≤ z ∧ z ≤ x1 else (w, k) ∈ vs ∧ y0 ≤ z ∧ z ≤ y1
  have joint : ∀ {u w k z0 z1}, Track T nodes edges u w k z0 z1 → ∀ z, z0 ≤ z → z < z1 →
      ∃ p ∈ nodes, ∃ q ∈ nodes, FragOf T p u w k z ∧ FragOf T q u w k (z + 1) ∧ (p = q ∨ (p, q) ∈ edges ∨ (q, p) ∈ edges) := by
    intro u w k z0 z1 h z a b
    obtain ⟨p, hp, lp⟩ := h.qubits z a (by omega)
    obtain ⟨q, hq, lq⟩ := h.qubits (z + 1) (by omega) (by omega)
    exact ⟨p, hp, q, hq, (lies_frag lp).2, (lies_frag lq).2, h.joints z a b p hp q hq lp lq⟩
  obtain ⟨l, h1, C, hC, hu, hc⟩ := fits_mask hG hf hD hD' (S := S)
    (by
      intro u w k z h
      cases u with
      | false =>
        obtain ⟨a, b, c⟩ := h
        obtain ⟨q, hq, h⟩ := (hg.vertical _ a).2.2.qubits z b c
        exact ⟨q, hq, (lies_frag h).2⟩
      | true =>
        obtain ⟨a, b, c⟩ := h
        obtain ⟨q, hq, h⟩ := (hg.horizontal _ a).2.2.qubits z b c
        exact ⟨q, hq, (lies_frag h).2⟩)
    (by
      intro x k y j a b p hp q hq fp fq
      exact hg.coupled _ a.1 _ b.1 p hp q hq (frag_lies (hG.qubits p hp) fp) (frag_lies (hG.qubits q hq) fq))
  obtain ⟨l', embs, k1, k2, _, _, k5⟩ := C39_partial hG (Nat.zero_lt_of_lt hY) (Nat.zero_lt_of_lt hX) (bound := 64) (by decide) hD hD'
  rw [h1] at k1; cases k1
  refine ⟨embs, k2, ?_⟩
  obtain ⟨lines, mem, m1, m2, m3⟩ := k5 C hC
  obtain ⟨lines', mem', n1, n2, n3⟩ := C51_windows hG (Nat.zero_lt_of_lt hY) (Nat.zero_lt_of_lt hX) (bound := 64) (by decide) hD hD' h1 hC
  rw [m1] at n1; cases n1
  rw [m2] at n2; cases n2
  obtain ⟨vs', hs', d1, d2, e1, e2, e3, _⟩ := n3 y0 y1 x0 x1 hg.y hY hg.x hX
  have hvs : vs ⊆ vs' := by
    intro v hv
    obtain ⟨a, b, c⟩ := hg.vertical v hv
    refine (e1 v).mpr ⟨a, b, fun z z1 z2 => hu _ _ _ _ (show S false v.1 v.2 z from ⟨hv, z1, z2⟩), fun z z1 z2 => ?_⟩
    exact hc _ _ _ _ (show S false v.1 v.2 z from ⟨hv, z1, by omega⟩) (show S false v.1 v.2 (z + 1) from ⟨hv, by omega, by omega⟩) (joint c z z1 z2)
  have hhs : hs ⊆ hs' := by
    intro v hv
    obtain ⟨a, b, c⟩ := hg.horizontal v hv
    refine (e2 v).mpr ⟨a, b, fun z z1 z2 => hu _ _ _ _ (show S true v.1 v.2 z from ⟨hv, z1, z2⟩), fun z z1 z2 => ?_⟩
    exact hc _ _ _ _ (show S true v.1 v.2 z from ⟨hv, z1, by omega⟩) (show S true v.1 v.2 (z + 1) from ⟨hv, by omega, by omega⟩) (joint c z z1 z2)
  have lv := (List.subperm_of_subset hg.nodup.1 hvs).length_le
  have lh := (List.subperm_of_subset hg.nodup.2 hhs).length_le
  have pv := List.length_pos_iff.mpr hv
  have ph := List.length_pos_iff.mpr hh
  obtain ⟨emb, he⟩ := m3 y0 y1 x0 x1 _ hg.y hY hg.x hX e3 (by simp only; omega) (by simp only; omega)
  exact ⟨_, emb, he, lv, lh⟩

section
variable {α : Type} [DecidableEq α] {P : Build} {ord : Listing} {int : Nat → α} {h : List (BiQuestion α × Chance × Option Nat)}

/-- C119, for queries: if at most six internal couplers of the graph are missing, a query for a biclique neither side of which is larger than the number of vertical lines or of horizontal lines of a weave is answered with a valid
biclique that has the labels asked for, whatever the seeds and whatever was asked before, processes that were killed included (but not while they evicted). -/
theorem C119_answer (hP : P.Ok) (hord : ord.Ok) (ho : ∀ e ∈ h, e.2.1.Ok ∧ ∀ g, e.1.g = some g → g.Wide) (hk : NotEvicting P.limit (biRequests P ord h) Dir.empty) {q : BiQuestion α}
    {x : Except EErr (Cache.Dict α (List Nat))} (hx : (q, x) ∈ asksBi P ord int h Dir.empty) {g : Target} (hqg : q.g = some g) (hs : q.seed.Valid) (hs0 : q.seed ≠ .none) (hf : FewMissing g.T g.nodes g.edges 6)
    {y0 y1 x0 x1 : Nat} {vs hl : List (Nat × Nat)} (hg : Weave g.T g.nodes g.edges y0 y1 x0 x1 vs hl) {N M : List α} (hq : q.query = .pair (.nodes N) (.nodes M)) (hn : (N ++ M).Nodup) (hne : N ++ M ≠ [])
    (hmax : max N.length M.length ≤ min vs.length hl.length) :
    ∃ A B items, x = .ok items ∧ items.Perm (N.zip A ++ M.zip B) ∧ A.length = N.length ∧ B.length = M.length ∧ BicliqueEmbedding g.nodes g.edges A B := by
  have hpos : 0 < (N ++ M).length := List.length_pos_iff.mpr hne
  rw [List.length_append] at hpos
  have hv : vs ≠ [] := by rintro rfl; simp only [List.length_nil] at hmax; omega
  have hh : hl ≠ [] := by rintro rfl; simp only [List.length_nil] at hmax; omega
  obtain ⟨c0, hmem, _⟩ := asksBi_mem hx
  obtain ⟨hc0, hg0⟩ := ho _ hmem
  have hw := hg0 g hqg
  rw [C118_repeat_partial hP ho hk hx hs0 (fun g' hg' _ => .inl (by rw [hqg] at hg'; cases hg'; exact hf)) hc0]
  obtain ⟨seed, hog⟩ := openGraph_valid hw.1 hs c0.entropy true
  obtain ⟨M', embs, hM, hb, _⟩ := biRequest_ok (ord := ord) hP hw hc0 seed
  rw [askBi_fresh hP hw hqg hc0 hog hM hb]
  obtain ⟨embs', e1, s, emb, e2, e3, e4⟩ := C119_found hw.1.1 hf (hP.draws _ _ _).1 (hP.draws _ _ _).2 hg hv hh
  rw [hb] at e1; cases e1
  have hmem' : (s, emb) ∈ ord embs := (hord embs).mem_iff.mpr e2
  have hit := found_items hw.1.1 hw.2.1 hw.2.2 (hP.draws _ _ _).1 (hP.draws _ _ _).2 hord hb
  have hle : max N.length M.length ≤ min s.1 s.2 := by omega
  obtain ⟨b, b1, b2, _⟩ := C38_partial hit (List.ne_nil_of_mem hmem') N M
  obtain ⟨A, B, items, f1, f2, f3, f4, f5, _⟩ := b2 (by
      by_contra hno
      rw [not_or, not_not, not_not] at hno
      rw [hno.1, hno.2] at hne
      exact hne rfl) ⟨_, hmem', hle⟩
  refine ⟨A, B, items, ?_, f2, f3, f4, f5⟩
  rw [b1, hq]
  have e : fromBicliques int (.pair (.nodes N) (.nodes M)) (.ok b) = match Cache.findBiclique b N M with | .error e => .error (.memory e) | .ok items => .ok (Cache.toDict items) := rfl
  show fromBicliques int (.pair (.nodes N) (.nodes M)) (.ok b) = _
  rw [e, f1]
  simp only
  rw [Cache.toDict_self]
  refine (f2.map Prod.fst).nodup_iff.mpr ?_
  rw [List.map_append, List.map_fst_zip (by omega), List.map_fst_zip (by omega)]
  exact hn

/-- C119, for `largest_balanced_biclique`: if at most six internal couplers of the graph are missing, it has at least as many chains on each side as a weave has vertical lines or as it has horizontal lines, whichever are fewer. -/
theorem C119_largest (hP : P.Ok) (hord : ord.Ok) (hint : ∀ i j, int i = int j → i = j) (ho : ∀ e ∈ h, e.2.1.Ok ∧ ∀ g, e.1.g = some g → g.Wide) (hk : NotEvicting P.limit (biRequests P ord h) Dir.empty) {q : BiQuestion α}
    {x : Except EErr (Cache.Dict α (List Nat))} (hx : (q, x) ∈ asksBi P ord int h Dir.empty) {g : Target} (hqg : q.g = some g) (hs : q.seed.Valid) (hs0 : q.seed ≠ .none) (hf : FewMissing g.T g.nodes g.edges 6)
    {y0 y1 x0 x1 : Nat} {vs hl : List (Nat × Nat)} (hg : Weave g.T g.nodes g.edges y0 y1 x0 x1 vs hl) (hq : q.query = .largest) (hv : vs ≠ []) (hh : hl ≠ []) :
    ∃ A B, x = .ok (((List.range (2 * A.length)).map int).zip (A ++ B)) ∧ A.length = B.length ∧ min vs.length hl.length ≤ A.length ∧ BicliqueEmbedding g.nodes g.edges A B := by
  obtain ⟨c0, hmem, _⟩ := asksBi_mem hx
  obtain ⟨hc0, hg0⟩ := ho _ hmem
  have hw := hg0 g hqg
  rw [C118_repeat_partial hP ho hk hx hs0 (fun g' hg' _ => .inl (by rw [hqg] at hg'; cases hg'; exact hf)) hc0]
  obtain ⟨seed, hog⟩ := openGraph_valid hw.1 hs c0.entropy true
  obtain ⟨M', embs, hM, hb, _⟩ := biRequest_ok (ord := ord) hP hw hc0 seed
  rw [askBi_fresh hP hw hqg hc0 hog hM hb]
  obtain ⟨embs', e1, s, emb, e2, e3, e4⟩ := C119_found hw.1.1 hf (hP.draws _ _ _).1 (hP.draws _ _ _).2 hg hv hh
  rw [hb] at e1; cases e1
  have hmem' : (s, emb) ∈ ord embs := (hord embs).mem_iff.mpr e2
  have hit := found_items hw.1.1 hw.2.1 hw.2.2 (hP.draws _ _ _).1 (hP.draws _ _ _).2 hord hb
  obtain ⟨b, b1, A, B, b2, b3, b4, b5, b6⟩ := C62_partial hit (List.ne_nil_of_mem hmem')
  have hle : min s.1 s.2 ≤ A.length := b6 _ hmem'
  refine ⟨A, B, ?_, b3, by omega, b5⟩
  rw [b1, hq]
  have hlen : (A ++ B).length = 2 * A.length := by rw [List.length_append]; omega
  show fromBicliques int .largest (.ok b) = _
  simp only [fromBicliques, b2]
  rw [Cache.toDict_self, hlen]
  rw [List.map_fst_zip (by simp)]
  exact List.nodup_range.map (fun i j => hint i j)

end

/-- The lines of tracks `0, …, t - 1` in columns or rows `a, …, a + n - 1`. -/
def allLines (a n t : Nat) : List (Nat × Nat) := (List.range' a n).flatMap fun w => (List.range t).map fun k => (w, k)

theorem mem_allLines {a n t : Nat} {p : Nat × Nat} : p ∈ allLines a n t ↔ a ≤ p.1 ∧ p.1 < a + n ∧ p.2 < t := by
  obtain ⟨w, k⟩ := p
  simp only [allLines, List.mem_flatMap, List.mem_range'_1, List.mem_map, List.mem_range, Prod.mk.injEq]
  constructor
  · rintro ⟨w', ⟨h1, h2⟩, k', h3, rfl, rfl⟩
    exact ⟨h1, h2, h3⟩
  · rintro ⟨h1, h2, h3⟩
    exact ⟨w, ⟨h1, h2⟩, k, h3, rfl, rfl⟩

theorem allLines_nodup (a n t : Nat) : (allLines a n t).Nodup := by
  unfold allLines
  rw [List.nodup_flatMap]
  refine ⟨fun w _ => (List.nodup_range).map fun i j h => by simpa using h, ?_⟩
  refine (List.nodup_range' (s := a) (n := n)).imp fun {x y} hxy => ?_
  simp only [Function.onFun, List.disjoint_left, List.mem_map, List.mem_range]
  rintro _ ⟨k, _, rfl⟩ ⟨k', _, h⟩
  simp only [Prod.mk.injEq] at h
  exact hxy h.1.symm

theorem allLines_length (a n t : Nat) : (allLines a n t).length = n * t := by
  simp [allLines]

/-- In a graph without faults a line goes on wherever there are qubits. -/
theorem faultless_next {T : Topo} {nodes : List Nat} {edges : List (Nat × Nat)} (hF : Faultless T nodes edges) : ∀ u w k z, ∀ p ∈ nodes, ∀ q ∈ nodes, Lies T p u w k z → Lies T q u w k (z + 1) → p = q ∨ Coupler edges p q := by
  intro u w k z p np q nq hp hq
  cases T with
  | chimera m n t =>
    cases u with
    | false =>
      obtain ⟨a1, a2, a3, rfl⟩ := hp
      obtain ⟨b1, b2, b3, rfl⟩ := hq
      exact .inr (hF.couplers _ np _ nq (.vertical b1 a2 a3))
    | true =>
      obtain ⟨a1, a2, a3, rfl⟩ := hp
      obtain ⟨b1, b2, b3, rfl⟩ := hq
      exact .inr (hF.couplers _ np _ nq (.horizontal a1 b2 a3))
  | pegasus d off =>
    obtain ⟨i, j, s, a1, a2, a3, a4, a5, rfl, a6, a7⟩ := hp
    obtain ⟨i', j', s', b1, b2, b3, b4, b5, rfl, b6, b7⟩ := hq
    obtain rfl : i = i' := by omega
    obtain rfl : j = j' := by omega
    generalize off u j = o at *
    obtain rfl | rfl : s' = s ∨ s' = s + 1 := by omega
    · exact .inl rfl
    · exact .inr (hF.couplers _ np _ nq (.external (by split <;> decide) a1 (by omega) b4))
  | zephyr d t =>
    obtain ⟨s, a1, a2, a3, rfl, a5, a6⟩ := hp
    obtain ⟨s', b1, b2, b3, rfl, b5, b6⟩ := hq
    obtain rfl | rfl : s' = s ∨ s' = s + 1 := by omega
    · exact .inl rfl
    · exact .inr (hF.couplers _ np _ nq (.external (by split <;> decide) a1 a2 b3))

/-- Qubits that cross in a cell are coupled in the full lattice. -/
theorem lies_internal {T : Topo} : ∀ x k y j p q, Lies T p false x k y → Lies T q true y j x → Internal T p q := by
  intro x k y j p q hp hq
  cases T with
  | chimera m n t =>
    obtain ⟨a1, a2, a3, rfl⟩ := hp
    obtain ⟨b1, b2, b3, rfl⟩ := hq
    exact ⟨.cell a1 a2 a3 b3, _, _, _, _, _, _, a1, a2, a3, b1, b2, b3, rfl, rfl⟩
  | pegasus d off =>
    obtain ⟨i, j1, s, a1, a2, a3, a4, rfl, rfl, a6, a7⟩ := hp
    obtain ⟨i', j', s', b1, b2, b3, b4, rfl, rfl, b6, b7⟩ := hq
    have e1 : (2 * j1 + k) / 2 = j1 := by omega
    have e2 : (2 * j' + j) / 2 = j' := by omega
    exact ⟨.cross a1 (by omega) a4 b1 (by omega) b4 (by rw [e1, e2]; omega) (by rw [e1, e2]; omega) (by rw [e1, e2]; omega) (by rw [e1, e2]; omega),
      _, _, _, _, _, _, a1, by omega, a4, b1, by omega, b4, rfl, rfl⟩
  | zephyr d t =>
    obtain ⟨s, a1, a2, a3, rfl, a5, a6⟩ := hp
    obtain ⟨s', b1, b2, b3, rfl, b5, b6⟩ := hq
    exact ⟨.cross a1 a2 a3 b1 b2 b3 a5 a6 b5 b6, _, _, _, _, _, _, a1, a2, a3, b1, b2, b3, rfl, rfl⟩

/-- Where all lines of the full lattice run: rows `y0` to `y1` for the vertical ones, columns `x0` to `x1` for the horizontal ones, with the number of tracks. -/
theorem faultless_weave {T : Topo} {nodes : List Nat} {edges : List (Nat × Nat)} (hF : Faultless T nodes edges) {y0 y1 x0 x1 t : Nat} (hy : y0 ≤ y1) (hx : x0 ≤ x1)
    (hv : ∀ w k z, x0 ≤ w → w ≤ x1 → k < t → y0 ≤ z → z ≤ y1 → ∃ q, Lies T q false w k z) (hh : ∀ w k z, y0 ≤ w → w ≤ y1 → k < t → x0 ≤ z → z ≤ x1 → ∃ q, Lies T q true w k z) :
    Weave T nodes edges y0 y1 x0 x1 (allLines x0 (x1 + 1 - x0) t) (allLines y0 (y1 + 1 - y0) t) := by
  have next := faultless_next hF
  have cross := lies_internal (T := T)
  refine ⟨hy, hx, ⟨allLines_nodup _ _ _, allLines_nodup _ _ _⟩, fun v hvm => ?_, fun v hvm => ?_, fun v _ w _ p np q nq lp lq => hF.couplers p np q nq ?_⟩
  · obtain ⟨a, b, c⟩ := mem_allLines.mp hvm
    refine ⟨a, by omega, fun z z0 z1 => ?_, fun z _ _ p np q nq lp lq => next _ _ _ _ p np q nq lp lq⟩
    obtain ⟨q, hq⟩ := hv v.1 v.2 z a (by omega) c z0 z1
    obtain ⟨p, hp⟩ := hh z v.2 v.1 z0 z1 c a (by omega)
    exact ⟨q, (hF.qubits _ _ (cross _ _ _ _ _ _ hq hp)).1, hq⟩
  · obtain ⟨a, b, c⟩ := mem_allLines.mp hvm
    refine ⟨a, by omega, fun z z0 z1 => ?_, fun z _ _ p np q nq lp lq => next _ _ _ _ p np q nq lp lq⟩
    obtain ⟨q, hq⟩ := hh v.1 v.2 z a (by omega) c z0 z1
    obtain ⟨p, hp⟩ := hv z v.2 v.1 z0 z1 c a (by omega)
    exact ⟨q, (hF.qubits _ _ (cross _ _ _ _ _ _ hp hq)).2, hq⟩
  · have h := cross _ _ _ _ _ _ lp lq
    cases T <;> exact h.1

theorem faultless_few {T : Topo} {nodes : List Nat} {edges : List (Nat × Nat)} (hF : Faultless T nodes edges) : FewMissing T nodes edges 6 := by
  refine ⟨[], by simp, fun p hp q hq h => .inl (hF.couplers p hp q hq ?_)⟩
  cases T <;> exact h.1

/-- C119, `chimera_graph(m, n, t)` without faults: the search finds a biclique with sides of at least `n t` and `m t` chains. -/
theorem C119_chimera {m n t : Nat} {nodes : List Nat} {edges : List (Nat × Nat)} (hG : WFGraph (.chimera m n t) nodes edges) (hF : Faultless (.chimera m n t) nodes edges) (hm : 0 < m) (hn : 0 < n) (ht : 0 < t)
    {D D' : Draws} (hD : D.Perm) (hD' : D'.Perm) : ∃ embs, bestBicliques (.chimera m n t) 64 D D' nodes edges = .ok embs ∧ ∃ s emb, (s, emb) ∈ embs ∧ n * t ≤ s.1 ∧ m * t ≤ s.2 := by
  have hw := faultless_weave hF (y0 := 0) (y1 := m - 1) (x0 := 0) (x1 := n - 1) (t := t) (by omega) (by omega)
    (fun w k z _ a b _ c => ⟨_, show _ ∧ _ ∧ _ ∧ _ from ⟨by omega, by omega, b, rfl⟩⟩) (fun w k z _ a b _ c => ⟨_, show _ ∧ _ ∧ _ ∧ _ from ⟨by omega, by omega, b, rfl⟩⟩)
  have l1 : (allLines 0 (n - 1 + 1 - 0) t).length = n * t := by rw [allLines_length]; congr 1; omega
  have l2 : (allLines 0 (m - 1 + 1 - 0) t).length = m * t := by rw [allLines_length]; congr 1; omega
  have p1 := Nat.mul_pos hn ht
  have p2 := Nat.mul_pos hm ht
  obtain ⟨embs, e1, s, emb, e2, e3, e4⟩ := C119_found hG (faultless_few hF) hD hD' hw (List.ne_nil_of_length_pos (by omega)) (List.ne_nil_of_length_pos (by omega))
  exact ⟨embs, e1, s, emb, e2, l1 ▸ e3, l2 ▸ e4⟩

/-- C119, `zephyr_graph(m, t)` without faults: the search finds a biclique with two sides of at least `2 t (2 m - 1)` chains. -/
theorem C119_zephyr {m t : Nat} {nodes : List Nat} {edges : List (Nat × Nat)} (hG : WFGraph (.zephyr m t) nodes edges) (hF : Faultless (.zephyr m t) nodes edges) (hm : 0 < m) (ht : 0 < t)
    {D D' : Draws} (hD : D.Perm) (hD' : D'.Perm) : ∃ embs, bestBicliques (.zephyr m t) 64 D D' nodes edges = .ok embs ∧ ∃ s emb, (s, emb) ∈ embs ∧ 2 * t * (2 * m - 1) ≤ s.1 ∧ 2 * t * (2 * m - 1) ≤ s.2 := by
  have key : ∀ u w k z, 1 ≤ w → w ≤ 2 * m - 1 → k < 2 * t → 1 ≤ z → z ≤ 2 * m - 1 → ∃ q, Lies (.zephyr m t) q u w k z := by
    intro u w k z h1 h2 h3 h4 h5
    exact ⟨_, (z - k % 2) / 2, by omega, h3, by omega, rfl, by omega, by omega⟩
  have hw := faultless_weave hF (y0 := 1) (y1 := 2 * m - 1) (x0 := 1) (x1 := 2 * m - 1) (t := 2 * t) (by omega) (by omega) (key false) (key true)
  have l1 : (allLines 1 (2 * m - 1 + 1 - 1) (2 * t)).length = 2 * t * (2 * m - 1) := by rw [allLines_length, Nat.mul_comm]; congr 1
  have p1 : 0 < 2 * t * (2 * m - 1) := Nat.mul_pos (by omega) (by omega)
  obtain ⟨embs, e1, s, emb, e2, e3, e4⟩ := C119_found hG (faultless_few hF) hD hD' hw (List.ne_nil_of_length_pos (by omega)) (List.ne_nil_of_length_pos (by omega))
  exact ⟨embs, e1, s, emb, e2, l1 ▸ e3, l1 ▸ e4⟩

/-- C119, `pegasus_graph(m)` without faults: the search finds a biclique with two sides of at least `12 (m - 1) - 2 (hi - lo)` chains, where the offsets (halved) are between `lo` and `hi`. -/
theorem C119_pegasus {m lo hi : Nat} {off : Bool → Nat → Nat} {nodes : List Nat} {edges : List (Nat × Nat)} (hG : WFGraph (.pegasus m off) nodes edges) (hF : Faultless (.pegasus m off) nodes edges)
    (ho : ∀ u j, j < 6 → lo ≤ off u j ∧ off u j ≤ hi) (hm : hi < 6 * (m - 1) + lo) {D D' : Draws} (hD : D.Perm) (hD' : D'.Perm) :
    ∃ embs, bestBicliques (.pegasus m off) 64 D D' nodes edges = .ok embs ∧ ∃ s emb, (s, emb) ∈ embs ∧ 12 * (m - 1) - 2 * (hi - lo) ≤ s.1 ∧ 12 * (m - 1) - 2 * (hi - lo) ≤ s.2 := by
  have hlo : lo ≤ hi := by have := ho false 0 (by decide); omega
  have hlo6 : lo < 6 := Nat.lt_of_le_of_lt (ho false 0 (by decide)).1 (hG.supported false 0)
  have key : ∀ u w k z, hi ≤ w → w ≤ 6 * (m - 1) + lo - 1 → k < 2 → hi ≤ z → z ≤ 6 * (m - 1) + lo - 1 → ∃ q, Lies (.pegasus m off) q u w k z := by
    intro u w k z h1 h2 h3 h4 h5
    obtain ⟨o1, o2⟩ := ho u (w % 6) (by omega)
    refine ⟨_, w / 6, w % 6, (z - off u (w % 6)) / 6, by omega, by omega, h3, ?_, by omega, rfl, ?_, ?_⟩
    all_goals
      generalize off u (w % 6) = o at *
      omega
  have hw := faultless_weave hF (y0 := hi) (y1 := 6 * (m - 1) + lo - 1) (x0 := hi) (x1 := 6 * (m - 1) + lo - 1) (t := 2) (by omega) (by omega) (key false) (key true)
  have l1 : (allLines hi (6 * (m - 1) + lo - 1 + 1 - hi) 2).length = 12 * (m - 1) - 2 * (hi - lo) := by rw [allLines_length]; omega
  obtain ⟨embs, e1, s, emb, e2, e3, e4⟩ := C119_found hG (faultless_few hF) hD hD' hw (List.ne_nil_of_length_pos (by omega)) (List.ne_nil_of_length_pos (by omega))
  exact ⟨embs, e1, s, emb, e2, l1 ▸ e3, l1 ▸ e4⟩

end MM
