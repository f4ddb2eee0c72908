import Verif.Bus.BicliqueBest
import Verif.Cache.BicliqueInv
import Verif.Props.Bundles
import Verif.Props.CliqueCache

/-! C38, C39, C51, C62: bicliques. -/

namespace MM

open Bus Lattice Spec

/-- Track `k` of bundle `w` is in use from position `z0` to `z1` and goes on from each of them to the next. -/
def Unbroken (T : Topo) (C : Masks) (u : Bool) (w k z0 z1 : Nat) : Prop :=
  (∀ z, z0 ≤ z → z ≤ z1 → Uses T C u w k z) ∧ ∀ z, z0 ≤ z → z < z1 → Continues T C u w k z

theorem whole_iff {T : Topo} {nodes : List Nat} {edges : List (Nat × Nat)} {C : Masks} {N E : Bool → Nat → Nat → Nat → Prop} (hc : Clean T nodes edges C N E) {u : Bool} {w k z0 z1 : Nat} (hw : w < T.dimW u) (hz1 : z1 < T.dimZ u) :
    Whole N E u w k z0 z1 ↔ Unbroken T C u w k z0 z1 := by
  refine and_congr ?_ ?_
  · refine forall_congr' fun z => forall_congr' fun a => forall_congr' fun b => ?_
    exact (hc.rep.node u w k z ⟨hw, by show z < T.dimZ u; omega⟩).symm
  · constructor
    · intro h z a b
      exact (hc.rep.edge u w k (z + 1) ⟨hw, by show z + 1 < T.dimZ u; omega⟩).mpr (h (z + 1) (by omega) (by omega))
    · intro h z a b
      obtain ⟨y, rfl⟩ : ∃ y, z = y + 1 := ⟨z - 1, by omega⟩
      exact (hc.rep.edge u w k (y + 1) ⟨hw, by show y + 1 < T.dimZ u; omega⟩).mp (h y (by omega) (by omega))

/-- C51: for every mask that is searched and every rectangle of the grid, the scores that are stored are the numbers of its unbroken vertical and horizontal lines.
The chains made for the rectangle are as many, and embed the complete bipartite graph with these two sides. -/
theorem C51_windows {T : Topo} {nodes : List Nat} {edges : List (Nat × Nat)} (hG : WFGraph T nodes edges) (hY : 0 < T.dimY) (hX : 0 < T.dimX) {bound : Nat} (hb : 0 < bound)
    {D D' : Draws} (hD : D.Perm) (hD' : D'.Perm) {l : List Masks} (hl : searched T bound D D' nodes edges = .ok l) {C : Masks} (hC : C ∈ l) :
    ∃ lines mem, lineMasks T C = .ok lines ∧ bicliqueScores T lines = .ok mem ∧ ∀ y0 y1 x0 x1, y0 ≤ y1 → y1 < T.dimY → x0 ≤ x1 → x1 < T.dimX →
      ∃ vs hs : List (Nat × Nat), vs.Nodup ∧ hs.Nodup ∧
        (∀ p, p ∈ vs ↔ x0 ≤ p.1 ∧ p.1 ≤ x1 ∧ Unbroken T C false p.1 p.2 y0 y1) ∧ (∀ p, p ∈ hs ↔ y0 ≤ p.1 ∧ p.1 ≤ y1 ∧ Unbroken T C true p.1 p.2 x0 x1) ∧
        rectScore T mem y0 y1 x0 x1 = .ok (vs.length, hs.length) ∧
        ∃ A B, inflateRect T lines y0 y1 x0 x1 = .ok (A ++ B) ∧ A.length = vs.length ∧ B.length = hs.length ∧ BicliqueEmbedding nodes edges A B ∧ ∀ c ∈ A ++ B, c.Nodup := by
  obtain ⟨l', h1, _, h3⟩ := searched_ok hG hb hD hD'
  rw [hl] at h1; cases h1
  obtain ⟨N, E, hc⟩ := h3 C hC
  obtain ⟨lines, h4, h5⟩ := lineMasks_ok hc.sized
  obtain ⟨mem, m1, m2⟩ := bicliqueScores_ok (scores_of hc h5) hY hX
  refine ⟨lines, mem, h4, m1, fun y0 y1 x0 x1 hy hy1 hx hx1 => ?_⟩
  obtain ⟨A, B, ho⟩ := rect_ok hG hc h5 (r := ⟨y0, y1, x0, x1⟩) ⟨hy, hx, hy1, hx1⟩
  obtain ⟨ps, hps⟩ := ho.left
  obtain ⟨qs, hqs⟩ := ho.right
  obtain ⟨b1, b2⟩ := ho.biclique hG hc
  have hr : toRect (y1 - y0 + 1) (x1 - x0 + 1) y0 x0 = ⟨y0, y1, x0, x1⟩ := by
    simp only [toRect, show y0 + (y1 - y0 + 1) - 1 = y1 by omega, show x0 + (x1 - x0 + 1) - 1 = x1 by omega]
  obtain ⟨s1, s2⟩ := m2.sides (h := y1 - y0 + 1) (w := x1 - x0 + 1) (y := y0) (x := x0) (by omega) (by omega) (by omega) (by omega)
  rw [hr, ho.sides] at s1 s2
  refine ⟨ps, qs, hps.nodup, hqs.nodup, fun p => ?_, fun p => ?_, ?_, A, B, ho.inflate, hps.wires.length_eq.symm, hqs.wires.length_eq.symm, b1, b2⟩
  · rw [hps.mem]
    simp only
    constructor
    · rintro ⟨a, b, c⟩
      exact ⟨a, by omega, (whole_iff hc (show p.1 < T.dimX by omega) hy1).mp c⟩
    · rintro ⟨a, b, c⟩
      exact ⟨a, by omega, (whole_iff hc (show p.1 < T.dimX by omega) hy1).mpr c⟩
  · rw [hqs.mem]
    simp only
    constructor
    · rintro ⟨a, b, c⟩
      exact ⟨a, by omega, (whole_iff hc (show p.1 < T.dimY by omega) hx1).mp c⟩
    · rintro ⟨a, b, c⟩
      exact ⟨a, by omega, (whole_iff hc (show p.1 < T.dimY by omega) hx1).mpr c⟩
  · simp only [rectScore, s1, s2, bind, Except.bind]
    rw [← hps.wires.length_eq, ← hqs.wires.length_eq]
    rfl

/-- The scores in `chimera_graph(2, 2, 2)` without the coupler of 0 and 2, for its two masks, in the first row and in the whole grid. -/
example : (do
    let l ← searched (.chimera 2 2 2) 64 revDraws revDraws gridNodes gridEdges
    l.mapM fun C => do
      let lines ← lineMasks (.chimera 2 2 2) C
      let mem ← bicliqueScores (.chimera 2 2 2) lines
      let a ← rectScore (.chimera 2 2 2) mem 0 0 0 1
      let b ← rectScore (.chimera 2 2 2) mem 0 1 0 1
      pure (a, b)) = .ok [((4, 1), (4, 3)), ((3, 2), (3, 4))] := by decide +kernel

/-- C39, except for what `C39_lost` refutes. The search returns at most one embedding for each pair of sides; it is a valid biclique with these sides, taken from a rectangle of one of the masks;
no rectangle of the same mask with the same sides has a smaller length (as `biclique_length` computes it, which bounds the length of the chains).
For every rectangle of every mask that is crossed by lines both ways, there is an embedding with as many chains on each side. -/
theorem C39_partial {T : Topo} {nodes : List Nat} {edges : List (Nat × Nat)} (hG : WFGraph T nodes edges) (hY : 0 < T.dimY) (hX : 0 < T.dimX) {bound : Nat} (hb : 0 < bound)
    {D D' : Draws} (hD : D.Perm) (hD' : D'.Perm) :
    ∃ l embs, searched T bound D D' nodes edges = .ok l ∧ bestBicliques T bound D D' nodes edges = .ok embs ∧ (embs.map Prod.fst).Nodup ∧
      (∀ s emb, (s, emb) ∈ embs → ∃ A B, emb = A ++ B ∧ s = (A.length, B.length) ∧ A ≠ [] ∧ B ≠ [] ∧ BicliqueEmbedding nodes edges A B ∧ (∀ c ∈ emb, c.Nodup) ∧
        ∃ C ∈ l, ∃ lines y0 y1 x0 x1 len, lineMasks T C = .ok lines ∧ inflateRect T lines y0 y1 x0 x1 = .ok emb ∧ bicliqueLength T y0 y1 x0 x1 = .ok len ∧ (∀ c ∈ emb, c.length ≤ len) ∧
          ∀ y0' y1' x0' x1' len', y0' ≤ y1' → y1' < T.dimY → x0' ≤ x1' → x1' < T.dimX → (∃ mem, bicliqueScores T lines = .ok mem ∧ rectScore T mem y0' y1' x0' x1' = .ok s) →
            bicliqueLength T y0' y1' x0' x1' = .ok len' → len ≤ len') ∧
      ∀ C ∈ l, ∃ lines mem, lineMasks T C = .ok lines ∧ bicliqueScores T lines = .ok mem ∧
        ∀ y0 y1 x0 x1 s, y0 ≤ y1 → y1 < T.dimY → x0 ≤ x1 → x1 < T.dimX → rectScore T mem y0 y1 x0 x1 = .ok s → s.1 ≠ 0 → s.2 ≠ 0 → ∃ emb, (s, emb) ∈ embs := by
  obtain ⟨l, embs, h1, h2, h3, h4, h5⟩ := bestBicliques_ok hG hY hX hb hD hD'
  have hscore : ∀ {C : Masks} {N E : Bool → Nat → Nat → Nat → Prop} {lines : List Byte}, Clean T nodes edges C N E → lineMasks T C = .ok lines → ∃ mem, bicliqueScores T lines = .ok mem ∧
      ∀ y0 y1 x0 x1, y0 ≤ y1 → y1 < T.dimY → x0 ≤ x1 → x1 < T.dimX → rectScore T mem y0 y1 x0 x1 = .ok ((⟨y0, y1, x0, x1⟩ : Rect).sides T lines) := by
    intro C N E lines hc hl
    obtain ⟨lines', g1, g2⟩ := lineMasks_ok hc.sized
    rw [hl] at g1; cases g1
    obtain ⟨mem, m1, m2⟩ := bicliqueScores_ok (scores_of hc g2) hY hX
    refine ⟨mem, m1, fun y0 y1 x0 x1 hy hy1 hx hx1 => ?_⟩
    have hr : toRect (y1 - y0 + 1) (x1 - x0 + 1) y0 x0 = ⟨y0, y1, x0, x1⟩ := by
      simp only [toRect, show y0 + (y1 - y0 + 1) - 1 = y1 by omega, show x0 + (x1 - x0 + 1) - 1 = x1 by omega]
    obtain ⟨s1, s2⟩ := m2.sides (h := y1 - y0 + 1) (w := x1 - x0 + 1) (y := y0) (x := x0) (by omega) (by omega) (by omega) (by omega)
    rw [hr] at s1 s2
    simp only [rectScore, s1, s2, bind, Except.bind]; rfl
  refine ⟨l, embs, h1, h2, h3, fun s emb he => ?_, fun C hC => ?_⟩
  · obtain ⟨C, hC, N, E, lines, hc, hl, len, ⟨r, A, B, g1, g2, g3, g4, g5⟩, g6⟩ := h4 s emb he
    cases g5
    obtain ⟨b1, b2⟩ := g2.biclique hG hc
    refine ⟨A, B, rfl, rfl, g3, g4, b1, b2, C, hC, lines, r.y0, r.y1, r.x0, r.x1, _, hl, g2.inflate, g2.length, g2.short, ?_⟩
    rintro y0 y1 x0 x1 len' a b c d ⟨mem, m1, m2⟩ hlen
    obtain ⟨mem', n1, n2⟩ := hscore hc hl
    rw [m1] at n1; cases n1
    rw [n2 y0 y1 x0 x1 a b c d] at m2
    have hle := g6 ⟨y0, y1, x0, x1⟩ ⟨a, c, b, d⟩ (Except.ok.inj m2)
    have he : (⟨y0, y1, x0, x1⟩ : Rect).len T = len' := by simp only [Rect.len, hlen]
    rw [he] at hle
    exact hle
  · obtain ⟨N, E, lines, hc, hl, hT, hall⟩ := h5 C hC
    obtain ⟨mem, n1, n2⟩ := hscore hc hl
    refine ⟨lines, mem, hl, n1, fun y0 y1 x0 x1 s a b c d hs z1 z2 => ?_⟩
    rw [n2 y0 y1 x0 x1 a b c d] at hs
    obtain ⟨A, B, ho⟩ := rect_ok hG hc hT (r := ⟨y0, y1, x0, x1⟩) ⟨a, c, b, d⟩
    rw [ho.sides] at hs
    cases hs
    exact hall _ A B ⟨a, c, b, d⟩ ho (fun e => z1 (by simp [e])) (fun e => z2 (by simp [e]))

/-- Two cells in a row, the second with one vertical and one horizontal qubit; the coupler of 0 and 2 is missing. -/
def rowNodes : List Nat := [0, 1, 2, 3, 4, 6]
def rowEdges : List (Nat × Nat) := [(0, 3), (1, 2), (1, 3), (4, 6), (2, 6)]

theorem row_wf : WFGraph (.chimera 1 2 2) rowNodes rowEdges := by
  refine ⟨show 2 ≤ 8 by decide, ?_, by decide +kernel, ?_⟩
  · have : ∀ q ∈ rowNodes, q < 8 := by decide +kernel
    exact this
  · intro e he
    have : e ∈ chimeraEdges 1 2 2 := (show ∀ e ∈ rowEdges, e ∈ chimeraEdges 1 2 2 by decide +kernel) e he
    exact .inl (chimeraEdges_coupled this)

/-- What the search finds for this graph, mask by mask. -/
def rowMasks : Option (List (List ((Nat × Nat) × Nat × List (List Nat)))) :=
  (do
    let l ← searched (.chimera 1 2 2) 64 revDraws revDraws rowNodes rowEdges
    l.mapM (bicliquesOf (.chimera 1 2 2)) : B _).toOption

set_option synthInstance.maxSize 1000 in
/-- C39 is false of the code: the first mask gives an embedding of the biclique with sides 2 and 1 by single qubits; the second mask one with a chain of two qubits; the second one is returned. -/
theorem C39_lost : WFGraph (.chimera 1 2 2) rowNodes rowEdges ∧ revDraws.Perm ∧ ∃ z1 z2 embs, rowMasks = some [z1, z2] ∧ bestBicliques (.chimera 1 2 2) 64 revDraws revDraws rowNodes rowEdges = .ok embs ∧
    ((2, 1), 1, [[0], [1], [3]]) ∈ z1 ∧ BicliqueEmbedding rowNodes rowEdges [[0], [1]] [[3]] ∧
    ((2, 1), 2, [[1], [4], [2, 6]]) ∈ z2 ∧ ((2, 1), [[1], [4], [2, 6]]) ∈ embs := by
  refine ⟨row_wf, revDraws_perm, [((1, 1), 1, [[4], [6]]), ((2, 1), 1, [[0], [1], [3]])], [((1, 1), 1, [[4], [6]]), ((1, 2), 1, [[1], [2], [3]]), ((2, 1), 2, [[1], [4], [2, 6]])],
    [((1, 1), [[4], [6]]), ((2, 1), [[1], [4], [2, 6]]), ((1, 2), [[1], [2], [3]])], by decide +kernel, of_toOption (by decide +kernel), by decide, ?_, by decide, by decide⟩
  refine ⟨fun c hc => isChain_path ?_ ?_ ?_, by decide, by decide⟩
  · exact (show ∀ c ∈ [[0], [1]] ++ [[3]], c ≠ ([] : List Nat) by decide) c hc
  · exact (show ∀ c ∈ [[0], [1]] ++ [[3]], ∀ q ∈ c, q ∈ rowNodes by decide) c hc
  · exact (show ∀ c ∈ [[0], [1]] ++ [[3]], c.IsChain (Coupler rowEdges) by decide) c hc

/-- Contents of a biclique cache: at most one embedding for each pair of sides, valid and with these sides. -/
structure BicliqueItems (nodes : List Nat) (edges : List (Nat × Nat)) (embs : List ((Nat × Nat) × List (List Nat))) : Prop where
  unique : (embs.map Prod.fst).Nodup
  valid : ∀ s emb, (s, emb) ∈ embs → ∃ A B, emb = A ++ B ∧ s = (A.length, B.length) ∧ A ≠ [] ∧ B ≠ [] ∧ BicliqueEmbedding nodes edges A B

theorem BicliqueItems.items {nodes : List Nat} {edges : List (Nat × Nat)} {embs : List ((Nat × Nat) × List (List Nat))} (h : BicliqueItems nodes edges embs) : Cache.Items embs := by
  refine ⟨h.unique, fun p hp => ?_⟩
  obtain ⟨A, B, e1, e2, e3, e4, _⟩ := h.valid p.1 p.2 hp
  rw [e1, e2, List.length_append]
  exact ⟨List.length_pos_iff.mpr e3, List.length_pos_iff.mpr e4, rfl⟩

theorem BicliqueItems.cut {nodes : List Nat} {edges : List (Nat × Nat)} {embs : List ((Nat × Nat) × List (List Nat))} (h : BicliqueItems nodes edges embs) {s : Nat × Nat} {emb : List (List Nat)} (hs : (s, emb) ∈ embs) :
    emb.length = s.1 + s.2 ∧ BicliqueEmbedding nodes edges (emb.take s.1) (emb.drop s.1) := by
  obtain ⟨A, B, rfl, rfl, e3, e4, e5⟩ := h.valid s emb hs
  simp only [List.length_append, List.take_left, List.drop_left, true_and]
  exact e5

/-- C38, except for what `C38_lopsided` refutes. If the cache holds a biclique both of whose sides are at least as large as the larger of the two sides asked for, `find_biclique_embedding`
maps the labels `nn` and `mm` one by one to the chains of a valid biclique with these sides; otherwise it returns the empty dictionary. -/
theorem C38_partial {α : Type} {nodes : List Nat} {edges : List (Nat × Nat)} {embs : List ((Nat × Nat) × List (List Nat))} (h : BicliqueItems nodes edges embs) (hne : embs ≠ []) (nn mm : List α) :
    ∃ c, Cache.makeBicliques embs = .ok c ∧
      ((nn ≠ [] ∨ mm ≠ []) → (∃ p ∈ embs, max nn.length mm.length ≤ min p.1.1 p.1.2) →
        ∃ A B items, Cache.findBiclique c nn mm = .ok items ∧ items.Perm (nn.zip A ++ mm.zip B) ∧ A.length = nn.length ∧ B.length = mm.length ∧ BicliqueEmbedding nodes edges A B ∧
          ∃ p ∈ embs, ∀ x ∈ A ++ B, x ∈ p.2) ∧
      ((nn = [] ∧ mm = []) ∨ ¬ (∃ p ∈ embs, max nn.length mm.length ≤ min p.1.1 p.1.2) → Cache.findBiclique c nn mm = .ok []) := by
  obtain ⟨c, h1, h2⟩ := Cache.makeBicliques_ok h.items hne
  refine ⟨c, h1, ?_⟩
  have key : ∀ N M : List α, N.length ≤ M.length →
      (M ≠ [] → (∃ p ∈ embs, M.length ≤ min p.1.1 p.1.2) → ∃ A B items, Cache.findSorted c N M = .ok items ∧ items = N.zip A ++ M.zip B ∧ A.length = N.length ∧ B.length = M.length ∧ BicliqueEmbedding nodes edges A B ∧
        ∃ p ∈ embs, ∀ x ∈ A ++ B, x ∈ p.2) ∧
      (M = [] ∨ ¬ (∃ p ∈ embs, M.length ≤ min p.1.1 p.1.2) → Cache.findSorted c N M = .ok []) := by
    intro N M hNM
    obtain ⟨k1, k2⟩ := Cache.find_key h2 hNM
    constructor
    · rintro hM ⟨p, hp, hle⟩
      simp only [Cache.findSorted, if_neg (fun e => hM (List.length_eq_zero_iff.mp e))]
      cases hk : Cache.keyFor c N.length M.length with
      | none => exact absurd ⟨by omega, by omega⟩ (k2 hk p hp)
      | some k =>
        obtain ⟨g1, g2, g3⟩ := k1 k hk
        obtain ⟨⟨k', emb⟩, hq, rfl⟩ := List.mem_map.mp g1
        have hget : Cache.dget c.raw k' = some emb := by
          rw [h2.raw]
          exact Cache.dget_of_mem h.unique hq
        obtain ⟨l1, l2⟩ := h.cut hq
        obtain ⟨A, B, a1, a2, a3, a4, a5⟩ := Cache.answer_ok (N := N) (M := M) l1 l2 hNM g2 g3
        refine ⟨A, B, _, ?_, rfl, a1, a2, a3, ⟨_, hq, a5⟩⟩
        simp only [Cache.dat, hget, bind, Except.bind, a4]
        rfl
    · intro hor
      simp only [Cache.findSorted]
      split
      · rfl
      · rename_i hM
        rcases hor with e | e
        · exact absurd (by simp [e]) hM
        · cases hk : Cache.keyFor c N.length M.length with
          | none => rfl
          | some k =>
            obtain ⟨g1, g2, g3⟩ := k1 k hk
            obtain ⟨q, hq, rfl⟩ := List.mem_map.mp g1
            exact absurd ⟨q, hq, by omega⟩ e
  simp only [Cache.findBiclique]
  split
  · rename_i hlt
    have hm : max nn.length mm.length = nn.length := by omega
    have hnn : nn ≠ [] := fun e => by simp [e] at hlt
    rw [hm]
    obtain ⟨q1, q2⟩ := key mm nn (by omega)
    constructor
    · intro _ hp
      obtain ⟨A, B, items, e1, e2, e3, e4, e5, p, hp, e6⟩ := q1 hnn hp
      refine ⟨B, A, items, e1, ?_, e4, e3, Cache.BicliqueEmbedding.symm e5, p, hp, fun x hx => e6 x ?_⟩
      · rw [e2]; exact List.perm_append_comm
      · rw [List.mem_append] at hx ⊢; tauto
    · rintro (⟨e, _⟩ | e)
      · exact absurd e hnn
      · exact q2 (.inr e)
  · rename_i hlt
    have hm : max nn.length mm.length = mm.length := by omega
    rw [hm]
    obtain ⟨q1, q2⟩ := key nn mm (by omega)
    constructor
    · intro hor hp
      have hmm : mm ≠ [] := by
        rintro rfl
        rcases hor with h | h
        · exact h (List.length_eq_zero_iff.mp (by simpa using hlt))
        · exact h rfl
      obtain ⟨A, B, items, e1, e2, e3, e4, e5, e6⟩ := q1 hmm hp
      exact ⟨A, B, items, e1, by rw [e2], e3, e4, e5, e6⟩
    · rintro (⟨_, e⟩ | e)
      · exact q2 (.inl e)
      · exact q2 (.inr e)

/-- Two cells in a row without faults. -/
def pairEdges : List (Nat × Nat) := chimeraEdges 1 2 2

theorem pair_wf : WFGraph (.chimera 1 2 2) (List.range 8) pairEdges := by
  refine ⟨show 2 ≤ 8 by decide, ?_, by decide +kernel, fun e he => .inl (chimeraEdges_coupled he)⟩
  have : ∀ q ∈ List.range 8, q < 8 := by decide +kernel
  exact this

/-- What the search finds for them. -/
def pairFound : List ((Nat × Nat) × List (List Nat)) := [((2, 2), [[0], [1], [2], [3]]), ((4, 2), [[0], [1], [4], [5], [2, 6], [3, 7]])]

theorem pair_found : bestBicliques (.chimera 1 2 2) 64 revDraws revDraws (List.range 8) pairEdges = .ok pairFound := of_toOption (by decide +kernel)

theorem pair_items : BicliqueItems (List.range 8) pairEdges pairFound := by
  obtain ⟨l, embs, _, h2, h3, h4, _⟩ := C39_partial (bound := 64) pair_wf (by decide) (by decide) (by decide) revDraws_perm revDraws_perm
  rw [pair_found] at h2; cases h2
  refine ⟨h3, fun s emb he => ?_⟩
  obtain ⟨A, B, a, b, c, d, e, _⟩ := h4 s emb he
  exact ⟨A, B, a, b, c, d, e⟩

example : ((Cache.makeBicliques pairFound).toOption.bind fun c => (Cache.findBiclique c ["a", "b"] ["c"]).toOption) = some [("c", [2]), ("a", [0]), ("b", [1])] := by decide +kernel

/-- C38 is false of the code: the cache holds a biclique with sides 4 and 2, but asked for sides 4 and 2, or 3 and 1, `find_biclique_embedding` returns the empty dictionary. -/
theorem C38_lopsided : ((4, 2), [[0], [1], [4], [5], [2, 6], [3, 7]]) ∈ pairFound ∧ BicliqueEmbedding (List.range 8) pairEdges [[0], [1], [4], [5]] [[2, 6], [3, 7]] ∧
    ∃ c, Cache.makeBicliques pairFound = .ok c ∧ Cache.findBiclique c ["a", "b", "c", "d"] ["e", "f"] = .ok [] ∧ Cache.findBiclique c ["a", "b"] ["c", "d", "e", "f"] = .ok [] ∧ Cache.findBiclique c ["a", "b", "c"] ["d"] = .ok [] := by
  refine ⟨by decide, (pair_items.cut (s := (4, 2)) (emb := [[0], [1], [4], [5], [2, 6], [3, 7]]) (by decide)).2, ?_⟩
  obtain ⟨c, h1, _⟩ := Cache.makeBicliques_ok pair_items.items (by decide)
  obtain ⟨c1, e1, _, f1⟩ := C38_partial pair_items (by decide) ["a", "b", "c", "d"] ["e", "f"]
  obtain ⟨c2, e2, _, f2⟩ := C38_partial pair_items (by decide) ["a", "b"] ["c", "d", "e", "f"]
  obtain ⟨c3, e3, _, f3⟩ := C38_partial pair_items (by decide) ["a", "b", "c"] ["d"]
  rw [h1] at e1 e2 e3
  cases e1; cases e2; cases e3
  exact ⟨c, h1, f1 (.inr (by decide)), f2 (.inr (by decide)), f3 (.inr (by decide))⟩

theorem maxMin_ok {l : List (Nat × Nat)} (h : l ≠ []) : ∃ k, Cache.maxMin l = some k ∧ k ∈ l ∧ ∀ x ∈ l, min x.1 x.2 ≤ min k.1 k.2 := by
  cases l with
  | nil => exact absurd rfl h
  | cons a l =>
    refine ⟨_, rfl, ?_⟩
    clear h
    induction l generalizing a with
    | nil => simp
    | cons b l ih =>
      rw [List.foldl_cons]
      split
      · rename_i hlt
        obtain ⟨i1, i2⟩ := ih b
        refine ⟨List.mem_cons_of_mem _ i1, fun x hx => ?_⟩
        rcases List.mem_cons.mp hx with rfl | hx
        · have := i2 b List.mem_cons_self
          omega
        · exact i2 x hx
      · rename_i hlt
        obtain ⟨i1, i2⟩ := ih a
        refine ⟨?_, fun x hx => ?_⟩
        · rcases List.mem_cons.mp i1 with h | h
          · rw [h]; exact List.mem_cons_self
          · exact List.mem_cons_of_mem _ (List.mem_cons_of_mem _ h)
        · rcases List.mem_cons.mp hx with rfl | hx
          · exact i2 x List.mem_cons_self
          · rcases List.mem_cons.mp hx with rfl | hx
            · have := i2 a List.mem_cons_self
              omega
            · exact i2 x (List.mem_cons_of_mem _ hx)

/-- C62, except for what `C62_no_biclique` refutes. From a cache that is not empty, `largest_balanced_biclique` returns a valid biclique with two sides of `s` chains each, where the cache holds
no biclique both of whose sides are larger than `s`. -/
theorem C62_partial {nodes : List Nat} {edges : List (Nat × Nat)} {embs : List ((Nat × Nat) × List (List Nat))} (h : BicliqueItems nodes edges embs) (hne : embs ≠ []) :
    ∃ c, Cache.makeBicliques embs = .ok c ∧ ∃ A B, Cache.largestBalanced c = .ok (A ++ B) ∧ A.length = B.length ∧ A ≠ [] ∧ BicliqueEmbedding nodes edges A B ∧ ∀ p ∈ embs, min p.1.1 p.1.2 ≤ A.length := by
  obtain ⟨c, h1, h2⟩ := Cache.makeBicliques_ok h.items hne
  refine ⟨c, h1, ?_⟩
  obtain ⟨k, k1, k2, k3⟩ := maxMin_ok (l := c.raw.map Prod.fst) (by rw [h2.raw]; simpa using hne)
  rw [h2.raw] at k2 k3
  obtain ⟨⟨k', emb⟩, hq, rfl⟩ := List.mem_map.mp k2
  have hget : Cache.dget c.raw k' = some emb := by
    rw [h2.raw]
    exact Cache.dget_of_mem h.unique hq
  obtain ⟨l1, l2⟩ := h.cut hq
  obtain ⟨s1, s2, _⟩ := h.items.sides _ hq
  simp only at k1 k3 s1 s2
  have ht : (emb.drop k'.1).take k'.2 = emb.drop k'.1 := by
    rw [List.take_of_length_le]
    rw [List.length_drop]; omega
  have p1 := List.perm_insertionSort (fun c d : List Nat => c.length ≤ d.length) (emb.take k'.1)
  have p2 := List.perm_insertionSort (fun c d : List Nat => c.length ≤ d.length) (emb.drop k'.1)
  have q1 := p1.length_eq
  have q2 := p2.length_eq
  rw [List.length_take] at q1
  rw [List.length_drop] at q2
  refine ⟨(Cache.sortLen (emb.take k'.1)).take (min k'.1 k'.2), (Cache.sortLen (emb.drop k'.1)).take (min k'.1 k'.2), ?_, ?_, ?_, ?_, ?_⟩
  · simp only [Cache.largestBalanced, k1, Cache.dat, hget, bind, Except.bind, ht]
    rfl
  · rw [List.length_take, List.length_take, Cache.sortLen, Cache.sortLen, q1, q2]
    omega
  · intro e
    have := congrArg List.length e
    rw [List.length_take, Cache.sortLen, q1, List.length_nil] at this
    omega
  · exact Cache.BicliqueEmbedding.sub (Cache.BicliqueEmbedding.perm l2 p1 p2) (List.take_sublist _ _) (List.take_sublist _ _)
  · intro p hp
    have := k3 p.1 (List.mem_map_of_mem hp)
    rw [List.length_take, Cache.sortLen, q1]
    omega

example : ((Cache.makeBicliques pairFound).toOption.bind fun c => (Cache.largestBalanced c).toOption) = some [[0], [1], [2], [3]] := by decide +kernel

/-- C62 is false of the code for a graph without couplers: the search returns no biclique, and the cache cannot be made (`max` of an empty dictionary raises `ValueError`). -/
theorem C62_no_biclique : WFGraph (.chimera 1 1 2) [0] [] ∧ bestBicliques (.chimera 1 1 2) 64 revDraws revDraws [0] [] = .ok [] ∧ Cache.makeBicliques [] = .error .value :=
  ⟨⟨show 2 ≤ 8 by decide, (show ∀ q ∈ [0], q < 4 by decide), by decide, by simp⟩, of_toOption (by decide +kernel), rfl⟩

end MM
