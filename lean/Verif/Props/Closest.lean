import Verif.Lay.PlaceInv
import Verif.Props.Layout

/-! Property C74: the placement `closest`. -/

namespace MM

open Lay Py Spec.Py Spec.Layout

variable {V Q : Type} [DecidableEq Q]

/-- The table of subsets: different connected sets of at most `hi` nodes with their means, and all of those with `lo` nodes or more. -/
structure Spec.Layout.Subsets (g : Graph Q) (pos : Q → List Rat) (lo hi : Nat) (sets : List (List Q × List Rat)) : Prop where
  connected : ∀ e ∈ sets, e.1 ≠ [] ∧ e.1.Nodup ∧ (∀ a ∈ e.1, a ∈ g.nodes) ∧ Linked g e.1
  size : ∀ e ∈ sets, e.1.length ≤ hi
  mean : ∀ e ∈ sets, IsMean (e.1.map pos) e.2
  distinct : sets.Pairwise fun x y => ¬ ∀ a, a ∈ x.1 ↔ a ∈ y.1
  complete : ∀ C : List Q, C.Nodup → (∀ a ∈ C, a ∈ g.nodes) → Linked g C → C ≠ [] → lo ≤ C.length → C.length ≤ hi → ∃ e ∈ sets, ∀ a, a ∈ C ↔ a ∈ e.1

/-- For layouts of the same dimension, whatever the order of sets in Python: with a number of neighbours from one to the number of subsets every node
of S gets a set chosen as in `Chosen`, in the order of S; otherwise the call fails if S has nodes. -/
theorem C74_partial {tree : List Pt → Pt → Nat → List (Rat × Nat)} {dist : Pt → Pt → Rat} (htree : ∀ pts p k, 0 < k → k ≤ pts.length → Neighbours dist pts p k (tree pts p k))
    {order : List (List Q) → List (List Q)} (hord : ∀ l, (order l).Perm l) {big lo hi num : Nat} (hbig : hi < big)
    {g : Graph Q} (hg : g.WF) {T : Layout Q} {pos : Q → Pt} {dim : Nat} (hT : ∀ v ∈ g.nodes, T.dict.lookup v = some (pos v) ∧ (pos v).length = dim)
    {S : Layout V} {verts : List V} {pt : V → Pt} (hS : S.dict = verts.map fun v => (v, pt v)) (hdim : ∀ v ∈ verts, (pt v).length = dim) :
    ∃ sets, Subsets g pos lo hi sets ∧
      (verts = [] → closest tree order big S g T lo hi num = .ok []) ∧
      (verts ≠ [] → sets = [] → closest tree order big S g T lo hi num = .error .unboundLocal) ∧
      (verts ≠ [] → sets ≠ [] → num = 0 → closest tree order big S g T lo hi num = .error .value) ∧
      (verts ≠ [] → sets ≠ [] → sets.length < num → closest tree order big S g T lo hi num = .error .index) ∧
      (0 < num → num ≤ sets.length → ∃ res, closest tree order big S g T lo hi num = .ok (verts.zip res) ∧ res.length = verts.length ∧
        ∀ (i : Nat) v X, verts[i]? = some v → res[i]? = some X → Chosen dist big sets num (pt v) (res.take i) X) := by
  obtain ⟨sets, e, h, hall⟩ := subsetLayout_ok hord hg hT lo hi
  have hrun : closest tree order big S g T lo hi num = placeAll tree big sets num S.dict [] := by
    unfold closest; rw [e]; rfl
  have hdims : sets ≠ [] → dimOf (sets.map Prod.snd) = dim := fun hne => dimOf_rows (by
      intro q hq
      obtain ⟨e, he, rfl⟩ := List.mem_map.mp hq
      exact (h.mean e he).2) (by simpa using hne)
  refine ⟨sets, ⟨fun e he => ⟨(h.sets e he).ne, (h.sets e he).nodup, (h.sets e he).nodes, (h.sets e he).linked⟩, fun e he => (h.sets e he).size,
    fun e he => (h.mean e he).1, h.distinct.imp fun {a b} hab hs => ?_, hall⟩, ?_, ?_, ?_, ?_, ?_⟩
  · rw [sameSet_iff.mpr hs] at hab; cases hab
  · intro h0
    rw [hrun, hS, h0]; rfl
  · intro h0 h1
    rw [hrun, hS]
    cases verts with
    | nil => exact absurd rfl h0
    | cons v verts => rw [List.map_cons]; unfold placeAll; rw [if_pos h1]
  · intro h0 h1 h2
    rw [hrun, hS]
    cases verts with
    | nil => exact absurd rfl h0
    | cons v verts => rw [List.map_cons]; unfold placeAll; rw [if_neg h1, if_pos (.inl h2)]
  · intro h0 h1 h2
    rw [hrun, hS]
    cases verts with
    | nil => exact absurd rfl h0
    | cons v verts =>
      rw [List.map_cons]; unfold placeAll
      rw [if_neg h1, if_neg, if_pos h2]
      rintro (h | h)
      · omega
      · exact h ((hdim v List.mem_cons_self).trans (hdims h1).symm)
  · intro hn hle
    obtain ⟨res, e1, e2, e3⟩ := placeAll_ok htree h hbig hn hle S.dict (by
      rw [hS]
      intro e he
      obtain ⟨v, hv, rfl⟩ := List.mem_map.mp he
      exact hdim v hv) [] (fun Y h => nomatch h)
    rw [hS, List.map_map] at e1
    rw [hS, List.length_map] at e2
    have hid : verts.map (Prod.fst ∘ fun v => (v, pt v)) = verts := by
      rw [show (Prod.fst ∘ fun v => (v, pt v)) = id from rfl, List.map_id]
    rw [hid] at e1
    refine ⟨res, by rw [hrun, hS]; exact e1, e2, fun i v X h1 h2 => ?_⟩
    have := e3 i (v, pt v) X (by rw [hS, List.getElem?_map, h1]; rfl) h2
    simpa using this

/-- With subsets of one node and one neighbour, as by default, every node is placed on a nearest node of T. -/
theorem C74_default {tree : List Pt → Pt → Nat → List (Rat × Nat)} {dist : Pt → Pt → Rat} (htree : ∀ pts p k, 0 < k → k ≤ pts.length → Neighbours dist pts p k (tree pts p k))
    {order : List (List Q) → List (List Q)} (hord : ∀ l, (order l).Perm l) {big : Nat} (hbig : 1 < big)
    {g : Graph Q} (hg : g.WF) (hne : g.nodes ≠ []) {T : Layout Q} {pos : Q → Pt} {dim : Nat} (hT : ∀ v ∈ g.nodes, T.dict.lookup v = some (pos v) ∧ (pos v).length = dim)
    {S : Layout V} {verts : List V} {pt : V → Pt} (hS : S.dict = verts.map fun v => (v, pt v)) (hdim : ∀ v ∈ verts, (pt v).length = dim) :
    ∃ res, closest tree order big S g T 1 1 1 = .ok (verts.zip (res.map fun q => [q])) ∧
      List.Forall₂ (fun v q => q ∈ g.nodes ∧ ∀ w ∈ g.nodes, sqDist (pt v) (pos q) ≤ sqDist (pt v) (pos w)) verts res := by
  obtain ⟨sets, h, _, _, _, _, hok⟩ := C74_partial htree hord (lo := 1) (num := 1) hbig hg hT hS hdim
  have hmean : ∀ w : Q, ∀ p : Pt, IsMean [pos w] p → p = pos w := by
    intro w p hp
    have hl : (pos w).length = p.length := hp.2.1 _ List.mem_cons_self
    refine List.ext_getElem? fun i => ?_
    cases hy : p[i]? with
    | none =>
      have := List.getElem?_eq_none_iff.mp hy
      exact (List.getElem?_eq_none_iff.mpr (by omega)).symm
    | some y =>
      obtain ⟨xs, hxs, e⟩ := hp.2.2 i y hy
      cases hxs with
      | cons h1 h2 =>
        cases h2
        rw [h1]
        simp at e
        rw [e]
  have hone : ∀ e ∈ sets, ∃ w ∈ g.nodes, e = ([w], pos w) := by
    intro e he
    obtain ⟨a1, _, a3, _⟩ := h.connected e he
    have := h.size e he
    have hm := h.mean e he
    obtain ⟨X, p⟩ := e
    match X, a1, this with
    | [w], _, _ => exact ⟨w, a3 w List.mem_cons_self, by rw [hmean w p hm]⟩
  have hall : ∀ w ∈ g.nodes, ([w], pos w) ∈ sets := by
    intro w hw
    obtain ⟨e, he, hs⟩ := h.complete [w] (List.nodup_singleton w) (by simpa using hw) (by
      intro a ha b hb
      rw [List.mem_singleton.mp ha, List.mem_singleton.mp hb]) (by simp) (Nat.le_refl 1) (Nat.le_refl 1)
    obtain ⟨w', _, rfl⟩ := hone e he
    have : w = w' := by simpa using (hs w).mp List.mem_cons_self
    rw [this]; exact he
  have hlen : 1 ≤ sets.length := by
    cases hn : g.nodes with
    | nil => exact absurd hn hne
    | cons w ws => exact List.length_pos_of_mem (hall w (by rw [hn]; exact List.mem_cons_self))
  obtain ⟨res, e, hl, hc⟩ := hok (Nat.le_refl 1) hlen
  have key : ∀ (verts : List V) (res : List (List Q)), res.length = verts.length →
      (∀ (i : Nat) v X, verts[i]? = some v → res[i]? = some X → ∃ q, X = [q] ∧ q ∈ g.nodes ∧ ∀ w ∈ g.nodes, sqDist (pt v) (pos q) ≤ sqDist (pt v) (pos w)) →
      ∃ qs, res = qs.map (fun q => [q]) ∧ List.Forall₂ (fun v q => q ∈ g.nodes ∧ ∀ w ∈ g.nodes, sqDist (pt v) (pos q) ≤ sqDist (pt v) (pos w)) verts qs := by
    intro verts
    induction verts with
    | nil =>
      intro res hl _
      cases res with
      | nil => exact ⟨[], rfl, .nil⟩
      | cons X res => simp at hl
    | cons v verts ih =>
      intro res hl hX
      cases res with
      | nil => simp at hl
      | cons X res =>
        obtain ⟨q, rfl, hq⟩ := hX 0 v X rfl rfl
        obtain ⟨qs, e, hqs⟩ := ih res (by simpa using hl) fun i v X h1 h2 => hX (i + 1) v X h1 h2
        exact ⟨q :: qs, by rw [e]; rfl, .cons hq hqs⟩
  obtain ⟨qs, eq, hqs⟩ := key verts res hl fun i v X h1 h2 => by
    obtain ⟨near, base, hnear, _, _, _, r, hr, p, hp, hX, _⟩ := hc i v X h1 h2
    obtain ⟨q, hq, e⟩ := hone _ hX
    obtain ⟨rfl, rfl⟩ := Prod.mk.inj e
    refine ⟨q, rfl, hq, fun w hw => ?_⟩
    obtain ⟨j, hj, ej⟩ := List.getElem_of_mem (hall w hw)
    have hj' : (sets.map Prod.snd)[j]? = some (pos w) := by rw [List.getElem?_map, List.getElem?_eq_getElem hj, ej]; rfl
    by_cases hjr : j ∈ near.map Prod.snd
    · obtain ⟨r', hr', rfl⟩ := List.mem_map.mp hjr
      have : r = r' := by
        match near, hnear.number, hr, hr' with
        | [x], _, hr, hr' => rw [List.mem_singleton.mp hr, List.mem_singleton.mp hr']
      subst this
      rw [hp] at hj'
      rw [Option.some.inj hj']
    · exact hnear.nearest r hr _ hp j _ hj' hjr
  exact ⟨qs, by rw [e, eq], hqs⟩

namespace Demo

/-- Nearest points by sorting, with squared distances. -/
def insertNear (a : Rat × Nat) : List (Rat × Nat) → List (Rat × Nat)
  | [] => [a]
  | b :: l => if a.1 ≤ b.1 then a :: b :: l else b :: insertNear a l

/-- All points by distance, the first `k` of them. -/
def bruteTree (pts : List Pt) (p : Pt) (k : Nat) : List (Rat × Nat) :=
  ((pts.zipIdx.map fun e => (sqDist p e.1, e.2)).foldr insertNear []).take k

theorem insertNear_perm (a : Rat × Nat) (l : List (Rat × Nat)) : (insertNear a l).Perm (a :: l) := by
  induction l with
  | nil => exact .refl _
  | cons b l ih =>
    unfold insertNear
    split
    · exact .refl _
    · exact (List.Perm.cons b ih).trans (.swap a b l)

theorem insertNear_sorted (a : Rat × Nat) (l : List (Rat × Nat)) (h : l.Pairwise (·.1 ≤ ·.1)) : (insertNear a l).Pairwise (·.1 ≤ ·.1) := by
  induction l with
  | nil => exact List.pairwise_singleton _ _
  | cons b l ih =>
    unfold insertNear
    rw [List.pairwise_cons] at h
    split
    · rename_i hab
      refine List.pairwise_cons.mpr ⟨fun x hx => ?_, List.pairwise_cons.mpr h⟩
      rcases List.mem_cons.mp hx with rfl | hx
      · exact hab
      · exact le_trans hab (h.1 x hx)
    · rename_i hab
      refine List.pairwise_cons.mpr ⟨fun x hx => ?_, ih h.2⟩
      rcases List.mem_cons.mp ((insertNear_perm a l).mem_iff.mp hx) with rfl | hx
      · exact le_of_lt (not_le.mp hab)
      · exact h.1 x hx

/-- There is a tree as required. -/
theorem bruteTree_ok (pts : List Pt) (p : Pt) (k : Nat) (hk : k ≤ pts.length) : Neighbours sqDist pts p k (bruteTree pts p k) := by
  have hperm : ∀ l : List (Rat × Nat), (l.foldr insertNear []).Perm l := by
    intro l
    induction l with
    | nil => exact .refl _
    | cons a l ih => exact (insertNear_perm a _).trans (ih.cons a)
  have hsort : ∀ l : List (Rat × Nat), (l.foldr insertNear []).Pairwise (·.1 ≤ ·.1) := by
    intro l
    induction l with
    | nil => exact .nil
    | cons a l ih => exact insertNear_sorted a _ ih
  unfold bruteTree
  have hp := hperm (pts.zipIdx.map fun e => (sqDist p e.1, e.2))
  have hs := hsort (pts.zipIdx.map fun e => (sqDist p e.1, e.2))
  generalize hl : (pts.zipIdx.map fun e => (sqDist p e.1, e.2)).foldr insertNear [] = l at hp hs
  have hmem : ∀ r ∈ l, ∃ q, pts[r.2]? = some q ∧ r.1 = sqDist p q := by
    intro r hr
    obtain ⟨e, he, rfl⟩ := List.mem_map.mp (hp.mem_iff.mp hr)
    exact ⟨e.1, List.mem_zipIdx_iff_getElem?.mp he, rfl⟩
  refine ⟨?_, ?_, fun r hr => hmem r (List.mem_of_mem_take hr), ?_⟩
  · rw [List.length_take, hp.length_eq, List.length_map, List.length_zipIdx]; omega
  · have h1 : ((l.take k).map Prod.snd).Sublist (l.map Prod.snd) := (List.take_sublist k l).map _
    refine h1.nodup ((hp.map Prod.snd).nodup_iff.mpr ?_)
    rw [List.map_map, show (Prod.snd ∘ fun e : Pt × Nat => (sqDist p e.1, e.2)) = Prod.snd from rfl, List.zipIdx_map_snd]
    exact List.nodup_range'
  · intro r hr q hq j q' hq' hj
    have hin : (sqDist p q', j) ∈ l := hp.mem_iff.mpr (List.mem_map.mpr ⟨(q', j), List.mem_zipIdx_iff_getElem?.mpr hq', rfl⟩)
    have hd : (sqDist p q', j) ∈ l.drop k := by
      rw [← List.take_append_drop k l] at hin
      rcases List.mem_append.mp hin with h | h
      · exact absurd (List.mem_map_of_mem h) hj
      · exact h
    rw [← List.take_append_drop k l, List.pairwise_append] at hs
    have := hs.2.2 r hr _ hd
    obtain ⟨q2, h1, h2⟩ := hmem r (List.mem_of_mem_take hr)
    rw [hq] at h1
    cases h1
    rw [← h2]; exact this

/-- A path of three nodes at 0, 1 and 4. -/
def pathT : Py.Graph Nat := ⟨[0, 1, 2], [(0, 1), (1, 2)]⟩

/-- Its layout. -/
def pathLay : Layout Nat := ⟨[0, 1, 2], [(0, [0]), (1, [1]), (2, [4])], [[0], [1], [4]]⟩

/-- Two nodes, at 1/2 and at 3. -/
def twoLay : Layout Nat := ⟨[7, 8], [(7, [1/2]), (8, [3])], [[1/2], [3]]⟩

/-- A complete graph on the corners of a square. -/
def squareT : Py.Graph Nat := ⟨[0, 1, 2, 3], [(0, 1), (0, 2), (0, 3), (1, 2), (1, 3), (2, 3)]⟩

/-- Its layout: 0 and 3 are opposite corners, and so are 1 and 2. -/
def squareLay : Layout Nat := ⟨[0, 1, 2, 3], [(0, [0, 0]), (1, [0, 1]), (2, [1, 0]), (3, [1, 1])], [[0, 0], [0, 1], [1, 0], [1, 1]]⟩

/-- Two nodes in the middle of the square. -/
def middleLay : Layout Nat := ⟨[7, 8], [(7, [1/2, 1/2]), (8, [1/2, 1/2])], [[1/2, 1/2], [1/2, 1/2]]⟩

end Demo

theorem Lay.ok_of_toOption {ε α : Type} {m : Except ε α} {a : α} (h : m.toOption = some a) : m = .ok a := by
  cases m with
  | error e => cases h
  | ok b => cases h; rfl

/-- The hypotheses of `C74_partial` are met: a path and two nodes, with one or two nodes for each. -/
example : ∃ res, closest Demo.bruteTree id 1000 Demo.twoLay Demo.pathT Demo.pathLay 1 2 1 = .ok ([7, 8].zip res) ∧ res = [[0, 1], [1, 2]] :=
  ⟨_, Lay.ok_of_toOption (by decide +kernel), rfl⟩

example : (∀ pts p k, 0 < k → k ≤ pts.length → Neighbours sqDist pts p k (Demo.bruteTree pts p k)) ∧ (∀ l : List (List Nat), (id l).Perm l) ∧
    Demo.pathT.WF ∧ (∀ v ∈ Demo.pathT.nodes, Demo.pathLay.dict.lookup v = some (if v = 2 then [4] else [(v : Rat)]) ∧
      (if v = 2 then [4] else [(v : Rat)]).length = 1) ∧
    Demo.twoLay.dict = [7, 8].map (fun v => (v, if v = 7 then [1/2] else [3])) :=
  ⟨fun pts p k _ h => Demo.bruteTree_ok pts p k h, fun _ => .refl _, ⟨by decide, by decide⟩, by decide +kernel, by decide +kernel⟩

/-- By default each of them is placed on the nearest node. -/
example : closest Demo.bruteTree id 1000 Demo.twoLay Demo.pathT Demo.pathLay 1 1 1 = .ok [(7, [0]), (8, [2])] := Lay.ok_of_toOption (by decide +kernel)

/-- The lower bound on the size is not kept: sets of two nodes where three were asked for. -/
theorem C74_too_small : closest Demo.bruteTree id 1000 Demo.twoLay Demo.pathT Demo.pathLay 3 3 1 = .ok [(7, [0, 1]), (8, [1, 2])] :=
  Lay.ok_of_toOption (by decide +kernel)

/-- Sets with the same barycentre hide each other: with two neighbours both nodes in the middle of a square get the same diagonal, although the other
diagonal has the same barycentre and no overlap. -/
theorem C74_hidden : closest Demo.bruteTree id 1000 Demo.middleLay Demo.squareT Demo.squareLay 2 2 2 = .ok [(7, [1, 2]), (8, [1, 2])] ∧
    IsMean [[0, 0], [1, 1]] [1/2, 1/2] ∧ IsMean [[0, 1], [1, 0]] [1/2, 1/2] ∧ overlapCost 10 [[1, 2]] [0, 3] < overlapCost 10 [[1, 2]] [1, 2] :=
  ⟨Lay.ok_of_toOption (by decide +kernel),
    ⟨by simp, by simp, fun i y h => by
      match i with
      | 0 => cases h; exact ⟨[0, 1], .cons rfl (.cons rfl .nil), by norm_num⟩
      | 1 => cases h; exact ⟨[0, 1], .cons rfl (.cons rfl .nil), by norm_num⟩
      | n + 2 => cases h⟩,
    ⟨by simp, by simp, fun i y h => by
      match i with
      | 0 => cases h; exact ⟨[0, 1], .cons rfl (.cons rfl .nil), by norm_num⟩
      | 1 => cases h; exact ⟨[1, 0], .cons rfl (.cons rfl .nil), by norm_num⟩
      | n + 2 => cases h⟩, by decide⟩

end MM
