import Verif.Lay.IntersectInv
import Verif.Props.Layout

/-! Property C75: the placement strategy `intersection`. -/

namespace MM

open Lay Spec.Layout Spec.Cross Lattice
open Bus (Topo)

variable {V Q : Type} [DecidableEq V] [DecidableEq Q]

/-- Number of columns and rows of the grid of crossings. -/
def Spec.Cross.columns : Topo → Nat
  | .chimera _ n t => t * n
  | .pegasus d _ => 12 * d
  | .zephyr d t => 2 * t * (2 * d + 1)

def Spec.Cross.rows : Topo → Nat
  | .chimera m _ t => t * m
  | .pegasus d _ => 12 * d
  | .zephyr d t => 2 * t * (2 * d + 1)

/-- Number of lines of a tile. -/
def Spec.Cross.tile : Topo → Nat
  | .chimera _ _ t => t
  | .pegasus _ _ => 12
  | .zephyr _ t => 2 * t

namespace Lay

theorem dims_of {F : Fam} {T : Topo} (h : Of F T) :
    F.dims.2.2 * F.dims.2.1 = columns T ∧ F.dims.2.2 * F.dims.1 = Spec.Cross.rows T ∧ F.dims.2.2 = tile T := by
  cases F <;> cases T <;> first | exact h.elim | skip
  · obtain ⟨rfl, rfl, rfl⟩ := h; exact ⟨rfl, rfl, rfl⟩
  · obtain ⟨rfl, rfl, rfl, _⟩ := h; exact ⟨rfl, rfl, rfl⟩
  · obtain ⟨rfl, rfl, rfl⟩ := h; exact ⟨rfl, rfl, rfl⟩

theorem scale_of {F : Fam} {T : Topo} (h : Of F T) : F.scale = (((min (columns T) (Spec.Cross.rows T) : Nat) : Rat) - 1) / 2 := by
  obtain ⟨h1, h2, _⟩ := dims_of h
  unfold Fam.scale
  rw [← h1, ← h2, Nat.mul_min_mul_left]

theorem mapM_ok {α β : Type} {f : α → Except Err β} {g : α → β} {l : List α} (h : ∀ a ∈ l, f a = .ok (g a)) : l.mapM f = .ok (l.map g) := by
  induction l with
  | nil => rfl
  | cons a l ih =>
    rw [List.mapM_cons, h a List.mem_cons_self, ih fun b hb => h b (List.mem_cons_of_mem _ hb)]
    rfl

theorem fit_ok {F : Fam} {S : Layout V} {verts : List V} {pt : V → Pt} (hS : Shows S verts pt) (hn : verts.Nodup) (hne : verts ≠ []) {c : Pt} {s0 : Rat}
    (hc : IsCentre (verts.map pt) c) (hs : IsScale (verts.map pt) c s0) (h2 : c.length = 2) (ht : 0 < F.dims.2.2) (hsc : 0 < F.scale) :
    ∃ S' new k, fit F S = .ok S' ∧ Shows S' verts new ∧ IsCentre (verts.map new) [F.scale, F.scale] ∧
      IsScale (verts.map new) [F.scale, F.scale] (min (s0 * F.dims.2.2) F.scale) ∧ (∀ v ∈ verts, Moved c [F.scale, F.scale] k (pt v) (new v)) ∧
      min (s0 * F.dims.2.2) F.scale = k * s0 := by
  have hs0 : 0 ≤ s0 := by
    obtain ⟨_, p, hp, i, x, y, _, _, e⟩ := hs
    exact e ▸ abs_nonneg _
  have htq : (0 : Rat) < (F.dims.2.2 : Rat) := by exact_mod_cast ht
  have harr := hS.2.2
  have hneL : S.array ≠ [] := by rw [harr]; simpa using hne
  have hrows : Rows c.length S.array := fun p hp => hc.1 p (harr ▸ hp)
  have ec : centerOf S.array = c := isCentre_unique hneL (isCentre_centerOf hrows hneL) (harr ▸ hc)
  have es : scaleOf S.array = s0 := isScale_unique (isScale_scaleOf hrows hneL (by omega)) (ec ▸ harr ▸ hs)
  have hmin : (if scaleOf S.array * F.dims.2.2 < F.scale then scaleOf S.array * F.dims.2.2 else F.scale) = min (s0 * F.dims.2.2) F.scale := by
    rw [es]
    split
    · rename_i h; exact (min_eq_left (le_of_lt h)).symm
    · rename_i h; exact (min_eq_right (not_lt.mp h)).symm
  have hnn : 0 ≤ min (s0 * F.dims.2.2) F.scale := le_min (mul_nonneg hs0 (le_of_lt htq)) (le_of_lt hsc)
  -- the scale
  have h1 : ∃ S1 new1 k, S.setScale (min (s0 * F.dims.2.2) F.scale) = .ok S1 ∧ Shows S1 verts new1 ∧ IsCentre (verts.map new1) c ∧
      IsScale (verts.map new1) c (min (s0 * F.dims.2.2) F.scale) ∧ (∀ v ∈ verts, Moved c c k (pt v) (new1 v)) ∧
      min (s0 * F.dims.2.2) F.scale = k * s0 := by
    by_cases h0 : s0 = 0
    · have hz : min (s0 * F.dims.2.2) F.scale = 0 := by rw [h0, zero_mul]; exact min_eq_left (le_of_lt hsc)
      refine ⟨S, pt, 1, ?_, hS, hc, ?_, fun v hv => moved_self c _ (hc.1 _ (List.mem_map_of_mem hv)), ?_⟩
      · rw [hz]; unfold Layout.setScale; rw [if_pos rfl]
      · rw [hz, ← h0]; exact hs
      · rw [hz, h0, mul_zero]
    · have hpos : 0 < s0 := lt_of_le_of_ne hs0 (Ne.symm h0)
      have hm : 0 < min (s0 * F.dims.2.2) F.scale := lt_min (mul_pos hpos htq) hsc
      obtain ⟨S1, new1, e, w1, w2, w3, w4⟩ := C72_set_scale hS hn hne hc hs h0 (ne_of_gt hm)
      exact ⟨S1, new1, _, e, w1, w2, by rwa [abs_of_nonneg hnn] at w3, w4, (div_mul_cancel₀ _ h0).symm⟩
  obtain ⟨S1, new1, k, e1, w1, w2, w3, w4, w5⟩ := h1
  obtain ⟨S2, new2, e2, u1, u2, u3, u4⟩ := C72_set_center w1 hn hne w2 w3 (c' := [F.scale, F.scale]) h2.symm
  refine ⟨S2, new2, k, ?_, u1, u2, u3, ?_, w5⟩
  · unfold fit
    dsimp only
    rw [hmin, e1]
    exact e2
  · intro v hv
    exact moved_trans (hc.1 _ (List.mem_map_of_mem hv)) (w4 v hv) (u4 v hv)

end Lay

/-- Let the nodes of T be qubits of one of the three lattices, whose grid of crossings has at least two rows and columns, and S a
non-empty graph with a layout in the plane. Then `intersection` gives every node of S, and no other, a set of qubits. The layout was
stretched by the size of a tile, or less where it would leave the grid, and moved to the middle of the grid; the qubits are those
of T that pass the grid point nearest to the new position; two different ones have different orientations and are coupled. -/
theorem C75_partial {F : Fam} {T : Topo} (hF : Of F T) (hgrid : 2 ≤ columns T ∧ 2 ≤ Spec.Cross.rows T) {coords : Q → List Nat} {num : Q → Nat} {nodes : List Q}
    (hat : ∀ q ∈ nodes, IsAt T (coords q) (num q)) (hinj : ∀ q ∈ nodes, ∀ q' ∈ nodes, num q = num q' → q = q')
    {S : Layout V} {verts : List V} {pt : V → Pt} (hS : Shows S verts pt) (hn : verts.Nodup) (hne : verts ≠ []) {c : Pt} {s0 : Rat}
    (hc : IsCentre (verts.map pt) c) (hs : IsScale (verts.map pt) c s0) (h2 : c.length = 2) :
    ∃ (chain : V → List Q) (new : V → Pt) (middle k : Rat),
      intersection (some F) coords nodes S = .ok (verts.map fun v => (v, chain v)) ∧
      middle = (((min (columns T) (Spec.Cross.rows T) : Nat) : Rat) - 1) / 2 ∧
      IsCentre (verts.map new) [middle, middle] ∧ IsScale (verts.map new) [middle, middle] (min (s0 * tile T) middle) ∧
      (∀ v ∈ verts, Moved c [middle, middle] k (pt v) (new v)) ∧ min (s0 * tile T) middle = k * s0 ∧
      ∀ v ∈ verts, (∃ x y a b, new v = [a, b] ∧ Nearest a x ∧ Nearest b y ∧ x < columns T ∧ y < Spec.Cross.rows T ∧
          ∀ q, q ∈ chain v ↔ q ∈ nodes ∧ Passes T (coords q) x y) ∧
        ∀ q ∈ chain v, ∀ q' ∈ chain v, q ≠ q' →
          orientation T (coords q) ≠ orientation T (coords q') ∧ (Coupled T (num q) (num q') ∨ Coupled T (num q') (num q)) := by
  obtain ⟨d1, d2, d3⟩ := dims_of hF
  have hsc := scale_of hF
  have hm2 : 2 ≤ min (columns T) (Spec.Cross.rows T) := Nat.le_min.mpr hgrid
  have hpos : 0 < F.scale := by
    rw [hsc]
    have : (2 : Rat) ≤ ((min (columns T) (Spec.Cross.rows T) : Nat) : Rat) := by exact_mod_cast hm2
    linarith
  have ht : 0 < F.dims.2.2 := by
    rcases Nat.eq_zero_or_pos F.dims.2.2 with h | h
    · rw [h, Nat.zero_mul] at d1; omega
    · exact h
  obtain ⟨S', new, k, ef, hS', hc', hs', hm, hk⟩ := fit_ok (F := F) hS hn hne hc hs h2 ht hpos
  obtain ⟨lines, el, hl1, hl2⟩ := lineUp_spec hF hat
  have hpt : ∀ v ∈ verts, ∃ x y a b, new v = [a, b] ∧ Nearest a x ∧ Nearest b y ∧ x < columns T ∧ y < Spec.Cross.rows T ∧
      place F lines (new v) = .ok (qubitsAt lines (x : Nat) (y : Nat)) := by
    intro v hv
    have hlen : (new v).length = 2 := hc'.1 _ (List.mem_map_of_mem hv)
    match hnv : new v, hlen with
    | [a, b], _ =>
      have ha := hs'.1 _ (List.mem_map_of_mem hv) 0 a F.scale (by rw [hnv]; rfl) rfl
      have hb := hs'.1 _ (List.mem_map_of_mem hv) 1 b F.scale (by rw [hnv]; rfl) rfl
      have bound : ∀ {x : Rat}, |x - F.scale| ≤ min (s0 * F.dims.2.2) F.scale →
          0 ≤ x ∧ x ≤ (((min (columns T) (Spec.Cross.rows T) : Nat) : Int) - 1 : Int) := by
        intro x hx
        have := abs_le.mp (le_trans hx (min_le_right _ _))
        rw [Int.cast_sub, Int.cast_natCast, Int.cast_one]
        rw [hsc] at this
        constructor <;> linarith [this.1, this.2]
      obtain ⟨a0, a1⟩ := bound ha
      obtain ⟨b0, b1⟩ := bound hb
      obtain ⟨ra0, ra1⟩ := round_range a0 a1
      obtain ⟨rb0, rb1⟩ := round_range b0 b1
      have near : ∀ {x : Rat}, 0 ≤ round x → Nearest x (round x).toNat := by
        intro x h0
        obtain ⟨n1, n2⟩ := round_near x
        have e : (((round x).toNat : Nat) : Rat) = (round x : Rat) := by
          have : (((round x).toNat : Nat) : Int) = round x := Int.toNat_of_nonneg h0
          exact_mod_cast this
        unfold Nearest
        rw [e]; exact ⟨n1, n2⟩
      have hcol : (round a).toNat < columns T := by
        have := Nat.min_le_left (columns T) (Spec.Cross.rows T)
        omega
      have hrow : (round b).toNat < Spec.Cross.rows T := by
        have := Nat.min_le_right (columns T) (Spec.Cross.rows T)
        omega
      refine ⟨(round a).toNat, (round b).toNat, a, b, rfl, near ra0, near rb0, hcol, hrow, ?_⟩
      unfold place
      simp only [List.map_cons, List.map_nil]
      rw [Int.toNat_of_nonneg ra0, Int.toNat_of_nonneg rb0, if_pos]
      rw [inGrid_iff]
      have e1 : ((F.dims.2.2 : Int) * F.dims.2.1) = columns T := by exact_mod_cast d1
      have e2 : ((F.dims.2.2 : Int) * F.dims.1) = Spec.Cross.rows T := by exact_mod_cast d2
      rw [e1, e2]
      omega
  have hchain : ∃ chain : V → List Q, ∀ v ∈ verts, place F lines (new v) = .ok (chain v) :=
    ⟨fun v => match place F lines (new v) with | .ok l => l | .error _ => [], fun v hv => by
      obtain ⟨x, y, a, b, _, _, _, _, _, e⟩ := hpt v hv
      simp only [e]⟩
  obtain ⟨chain, hch⟩ := hchain
  have hmem : ∀ v ∈ verts, ∃ x y a b, new v = [a, b] ∧ Nearest a x ∧ Nearest b y ∧ x < columns T ∧ y < Spec.Cross.rows T ∧
      ∀ q, q ∈ chain v ↔ q ∈ nodes ∧ Passes T (coords q) x y := by
    intro v hv
    obtain ⟨x, y, a, b, w1, w2, w3, w4, w5, e⟩ := hpt v hv
    refine ⟨x, y, a, b, w1, w2, w3, w4, w5, fun q => ?_⟩
    have : chain v = qubitsAt lines x y := by
      have := (hch v hv).symm.trans e
      injection this
    rw [this, mem_qubitsAt hl2, hl1]
  refine ⟨chain, new, F.scale, k, ?_, hsc, hc', d3 ▸ hs', hm, d3 ▸ hk, fun v hv => ⟨hmem v hv, ?_⟩⟩
  · unfold intersection
    dsimp only
    rw [el]
    show (do
      let S ← fit F S
      S.dict.mapM fun (x : V × Pt) => (do .ok (x.1, ← place F lines x.2) : Except Err (V × List Q))) = _
    rw [ef]
    show (S'.dict.mapM fun (x : V × Pt) => (do .ok (x.1, ← place F lines x.2) : Except Err (V × List Q))) = _
    rw [hS'.2.1]
    have : ∀ l : List V, (∀ v ∈ l, v ∈ verts) →
        (l.map fun v => (v, new v)).mapM (fun (x : V × Pt) => (do .ok (x.1, ← place F lines x.2) : Except Err (V × List Q))) = .ok (l.map fun v => (v, chain v)) := by
      intro l hl
      rw [List.mapM_map]
      exact mapM_ok fun v hv => by
        show (do .ok (v, ← place F lines (new v)) : Except Err (V × List Q)) = _
        rw [hch v (hl v hv)]; rfl
    exact this verts fun v hv => hv
  · intro q hq q' hq' hne'
    obtain ⟨x, y, a, b, _, _, _, _, _, hx⟩ := hmem v hv
    obtain ⟨m1, p1⟩ := (hx q).mp hq
    obtain ⟨m2, p2⟩ := (hx q').mp hq'
    exact coupled_of_passes (hat q m1) (hat q' m2) (fun e => hne' (hinj q m1 q' m2 e)) p1 p2

/-- On a Chimera graph without missing qubits every node of S gets two coupled qubits. -/
theorem C75_chimera_full {m n t : Nat} (hgrid : 2 ≤ t * n ∧ 2 ≤ t * m) {coords : Q → List Nat} {num : Q → Nat} {nodes : List Q}
    (hat : ∀ q ∈ nodes, IsAt (.chimera m n t) (coords q) (num q)) (hinj : ∀ q ∈ nodes, ∀ q' ∈ nodes, num q = num q' → q = q')
    (hfull : ∀ i < m, ∀ j < n, ∀ u < 2, ∀ k < t, ∃ q ∈ nodes, coords q = [i, j, u, k])
    {S : Layout V} {verts : List V} {pt : V → Pt} (hS : Shows S verts pt) (hn : verts.Nodup) (hne : verts ≠ []) {c : Pt} {s0 : Rat}
    (hc : IsCentre (verts.map pt) c) (hs : IsScale (verts.map pt) c s0) (h2 : c.length = 2) :
    ∃ chain : V → List Q, intersection (some (.chimera m n t)) coords nodes S = .ok (verts.map fun v => (v, chain v)) ∧
      ∀ v ∈ verts, ∃ q q', (∀ p, p ∈ chain v ↔ p = q ∨ p = q') ∧ Coupled (.chimera m n t) (num q) (num q') := by
  obtain ⟨chain, new, mid, k, e, _, _, _, _, _, h⟩ := C75_partial (F := .chimera m n t) (T := .chimera m n t) ⟨rfl, rfl, rfl⟩ hgrid hat hinj hS hn hne hc hs h2
  refine ⟨chain, e, fun v hv => ?_⟩
  obtain ⟨⟨x, y, a, b, _, _, _, hx, hy, hm⟩, hp⟩ := h v hv
  have ht : 0 < t := by
    rcases Nat.eq_zero_or_pos t with h | h
    · rw [h, Nat.zero_mul] at hgrid; omega
    · exact h
  have hi : y / t < m := by rw [Nat.div_lt_iff_lt_mul ht, Nat.mul_comm]; exact hy
  have hj : x / t < n := by rw [Nat.div_lt_iff_lt_mul ht, Nat.mul_comm]; exact hx
  obtain ⟨q, hq, eq⟩ := hfull _ hi _ hj 0 (by decide) (x % t) (Nat.mod_lt x ht)
  obtain ⟨q', hq', eq'⟩ := hfull _ hi _ hj 1 (by decide) (y % t) (Nat.mod_lt y ht)
  have ex := Nat.div_add_mod x t
  have ey := Nat.div_add_mod y t
  rw [Nat.mul_comm] at ex ey
  have lx := Nat.mod_lt x ht
  have ly := Nat.mod_lt y ht
  have pq : Passes (.chimera m n t) (coords q) x y := by
    rw [eq]
    refine .inl ⟨rfl, ex.symm, by omega, ?_⟩
    rw [Nat.add_mul, Nat.one_mul]; omega
  have pq' : Passes (.chimera m n t) (coords q') x y := by
    rw [eq']
    refine .inr ⟨rfl, ey.symm, by omega, ?_⟩
    rw [Nat.add_mul, Nat.one_mul]; omega
  have hqc := (hm q).mpr ⟨hq, pq⟩
  have hqc' := (hm q').mpr ⟨hq', pq'⟩
  have o : orientation (.chimera m n t) (coords q) = some 0 := by rw [eq]; rfl
  have o' : orientation (.chimera m n t) (coords q') = some 1 := by rw [eq']; rfl
  refine ⟨q, q', fun p => ⟨fun hpc => ?_, ?_⟩, ?_⟩
  · by_contra hno
    have h1 := (hp p hpc q hqc fun e => hno (.inl e)).1
    have h2 := (hp p hpc q' hqc' fun e => hno (.inr e)).1
    obtain ⟨hpn, hpp⟩ := (hm p).mp hpc
    rw [o] at h1
    rw [o'] at h2
    match hcp : coords p, hat p hpn with
    | [i, j, u, k], ⟨_, _, hu, _, _⟩ =>
      rw [hcp] at h1 h2
      have h1' : u ≠ 0 := fun e => h1 (congrArg some e)
      have h2' : u ≠ 1 := fun e => h2 (congrArg some e)
      omega
  · rintro (rfl | rfl)
    · exact hqc
    · exact hqc'
  · have a1 := hat q hq
    have a2 := hat q' hq'
    rw [eq] at a1
    rw [eq'] at a2
    obtain ⟨_, _, _, hk, e1⟩ := a1
    obtain ⟨_, _, _, hk', e2⟩ := a2
    rw [e1, e2]
    exact .cell hi hj hk hk'

/-- All qubits of `zephyr_graph(1, 1)`. -/
def Demo.zephyrNodes : List (List Nat) := [0, 1].flatMap fun u => [0, 1, 2].flatMap fun w => [0, 1].map fun j => [u, w, 0, j, 0]

def Demo.zephyrNumber : List Nat → Nat
  | [u, w, _, j, _] => zephyrNum 1 1 u w j 0
  | _ => 0

/-- A layout with two nodes at opposite corners. -/
def Demo.diagonal : Layout Nat := ⟨[0, 1], [(0, [0, 9]), (1, [9, 0])], [[0, 9], [9, 0]]⟩

/-- Contrary to the documentation, two qubits do not meet in every grid point: on a whole Zephyr graph a node may get no qubit. -/
theorem C75_no_qubits : intersection (some (.zephyr 1 1 1)) id Demo.zephyrNodes Demo.diagonal = .ok [(0, []), (1, [])] := by
  decide +kernel

/-- If the grid of crossings has only one row the layout is not scaled, and nodes fall off the grid: a `KeyError`. -/
theorem C75_one_row : intersection (some (.chimera 1 3 1)) id [[0, 0, 0, 0], [0, 0, 1, 0], [0, 1, 0, 0], [0, 1, 1, 0], [0, 2, 0, 0], [0, 2, 1, 0]]
    Demo.diagonal = .error .key := by
  decide +kernel

omit [DecidableEq Q] in
/-- Graphs of no known family are refused. -/
theorem C75_family (coords : Q → List Nat) (nodes : List Q) (S : Layout V) : intersection none coords nodes S = .error .notImplemented := rfl

/-! Non-vacuity: three nodes on `chimera_graph(1, 1, 2)` with a qubit missing, and on the Zephyr graph. -/

example : intersection (some (.chimera 1 1 2)) id [[0, 0, 0, 0], [0, 0, 1, 0], [0, 0, 1, 1]] (⟨[0, 1, 2], [(0, [0, 0]), (1, [9, 0]), (2, [9, 9])], [[0, 0], [9, 0], [9, 9]]⟩ : Layout Nat) =
    .ok [(0, [[0, 0, 0, 0], [0, 0, 1, 0]]), (1, [[0, 0, 1, 0]]), (2, [[0, 0, 1, 1]])] := by decide +kernel

example : ∃ (chain : Nat → List (List Nat)) (new : Nat → Pt) (middle k : Rat),
    intersection (some (.zephyr 1 1 1)) id Demo.zephyrNodes Demo.diagonal = .ok ([0, 1].map fun v => (v, chain v)) ∧
    middle = (((min 6 6 : Nat) : Rat) - 1) / 2 ∧
    IsCentre ([0, 1].map new) [middle, middle] ∧ IsScale ([0, 1].map new) [middle, middle] (min ((9 / 2 : Rat) * (2 : Nat)) middle) ∧
    (∀ v ∈ [0, 1], Moved [9 / 2, 9 / 2] [middle, middle] k (if v = 0 then [0, 9] else [9, 0]) (new v)) ∧ min ((9 / 2 : Rat) * (2 : Nat)) middle = k * (9 / 2) ∧
      ∀ v ∈ [0, 1], (∃ x y a b, new v = [a, b] ∧ Nearest a x ∧ Nearest b y ∧ x < 6 ∧ y < 6 ∧
          ∀ q, q ∈ chain v ↔ q ∈ Demo.zephyrNodes ∧ Passes (.zephyr 1 1) q x y) ∧
        ∀ q ∈ chain v, ∀ q' ∈ chain v, q ≠ q' → orientation (.zephyr 1 1) q ≠ orientation (.zephyr 1 1) q' ∧
          (Coupled (.zephyr 1 1) (Demo.zephyrNumber q) (Demo.zephyrNumber q') ∨
            Coupled (.zephyr 1 1) (Demo.zephyrNumber q') (Demo.zephyrNumber q)) := by
  have hr : Rows 2 ([0, 1].map fun v : Nat => if v = 0 then ([0, 9] : Pt) else [9, 0]) := by
    intro r hr
    obtain ⟨v, hv, rfl⟩ := List.mem_map.mp hr
    split <;> rfl
  have ec : centerOf ([0, 1].map fun v : Nat => if v = 0 then ([0, 9] : Pt) else [9, 0]) = [9 / 2, 9 / 2] := by decide +kernel
  have es : scaleOf ([0, 1].map fun v : Nat => if v = 0 then ([0, 9] : Pt) else [9, 0]) = 9 / 2 := by decide +kernel
  exact C75_partial (F := .zephyr 1 1 1) (T := .zephyr 1 1) ⟨rfl, rfl, rfl⟩ (by decide) (coords := id)
    (num := Demo.zephyrNumber) (nodes := Demo.zephyrNodes) (by decide +kernel) (by decide +kernel)
    (S := Demo.diagonal) (verts := [0, 1]) (pt := fun v => if v = 0 then [0, 9] else [9, 0]) (by unfold Shows; decide +kernel) (by decide) (by decide)
    (ec ▸ isCentre_centerOf hr (by decide)) (by rw [← ec, ← es]; exact isScale_scaleOf hr (by decide) (by decide)) rfl

end MM
