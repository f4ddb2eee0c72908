import Verif.Lay.Closest
import Verif.Lay.LayoutInv
import Verif.Props.Connected

/-! The table of subsets, and the choice among neighbours. -/

namespace MM
namespace Lay

open Py Spec.Py Spec.Layout

variable {V Q : Type} [DecidableEq V] [DecidableEq Q]

/-! ### Means -/

theorem sumRows_spec {d : Nat} (rs : List Pt) : ∀ r : Pt, r.length = d → Rows d rs → (rs.foldl (List.zipWith (· + ·)) r).length = d ∧
    ∀ (i : Nat) (y : Rat), (rs.foldl (List.zipWith (· + ·)) r)[i]? = some y →
      ∃ xs : List Rat, List.Forall₂ (fun p x => p[i]? = some x) (r :: rs) xs ∧ y = xs.sum := by
  induction rs with
  | nil =>
    intro r hr _
    exact ⟨hr, fun i y hy => ⟨[y], .cons hy .nil, by simp⟩⟩
  | cons q rs ih =>
    intro r hr hrs
    have hq : q.length = d := hrs q List.mem_cons_self
    obtain ⟨h1, h2⟩ := ih (List.zipWith (· + ·) r q) (by rw [List.length_zipWith, hr, hq, Nat.min_self]) hrs.tail
    refine ⟨h1, fun i y hy => ?_⟩
    obtain ⟨xs, hxs, e⟩ := h2 i y hy
    cases hxs with
    | cons hx hrest =>
      rename_i x xs
      obtain ⟨i', a, b, ha, hb, hab⟩ : ∃ (j : Nat) (a b : Rat), r[i]? = some a ∧ q[i]? = some b ∧ a + b = x := by
        rw [List.getElem?_zipWith] at hx
        cases ha : r[i]? with
        | none => rw [ha] at hx; cases hx
        | some a =>
          cases hb : q[i]? with
          | none => rw [ha, hb] at hx; cases hx
          | some b =>
            rw [ha, hb] at hx
            exact ⟨0, a, b, rfl, rfl, Option.some.inj hx⟩
      refine ⟨a :: b :: xs, .cons ha (.cons hb hrest), ?_⟩
      rw [e, List.sum_cons, List.sum_cons, List.sum_cons, ← hab]
      ring

theorem meanOf_spec {d : Nat} {rows : List Pt} (h : Rows d rows) (hne : rows ≠ []) : IsMean rows (meanOf rows) ∧ (meanOf rows).length = d := by
  cases rows with
  | nil => exact absurd rfl hne
  | cons r rs =>
    obtain ⟨h1, h2⟩ := sumRows_spec rs r (h r List.mem_cons_self) h.tail
    have hl : (meanOf (r :: rs)).length = d := by unfold meanOf sumRows; rw [List.length_map]; exact h1
    refine ⟨⟨hne, fun p hp => (h p hp).trans hl.symm, fun i y hy => ?_⟩, hl⟩
    unfold meanOf at hy
    rw [List.getElem?_map] at hy
    cases hs : (sumRows (r :: rs))[i]? with
    | none => rw [hs] at hy; cases hy
    | some z =>
      rw [hs] at hy
      obtain ⟨xs, hxs, e⟩ := h2 i z hs
      refine ⟨xs, hxs, ?_⟩
      have : z / ((r :: rs).length : Rat) = y := Option.some.inj hy
      have hn : ((r :: rs).length : Rat) ≠ 0 := by
        rw [List.length_cons]
        exact Nat.cast_ne_zero.mpr (Nat.succ_ne_zero rs.length)
      rw [← this, div_mul_cancel₀ _ hn, e]

/-! ### The table -/

/-- Connected sets of at most `hi` nodes. -/
structure IsSet (g : Graph Q) (hi : Nat) (X : List Q) : Prop where
  ne : X ≠ []
  nodup : X.Nodup
  nodes : ∀ a ∈ X, a ∈ g.nodes
  linked : Linked g X
  size : X.length ≤ hi

/-- A table of connected sets with their means. -/
structure Table (g : Graph Q) (pos : Q → Pt) (dim hi : Nat) (d : List (List Q × Pt)) : Prop where
  sets : ∀ e ∈ d, IsSet g hi e.1
  mean : ∀ e ∈ d, IsMean (e.1.map pos) e.2 ∧ e.2.length = dim
  distinct : d.Pairwise fun a b => sameSet a.1 b.1 = false

theorem sameSet_symm {X Y : List Q} : sameSet X Y = sameSet Y X := by
  unfold sameSet; rw [Bool.and_comm]

theorem isMean_perm {pts pts' : List Pt} (h : pts.Perm pts') {c : Pt} (hc : IsMean pts c) : IsMean pts' c := by
  refine ⟨fun e => hc.1 (by rw [e] at h; exact h.eq_nil), fun p hp => hc.2.1 p (h.mem_iff.mpr hp), fun i y hy => ?_⟩
  obtain ⟨xs, hxs, e⟩ := hc.2.2 i y hy
  have key : ∀ (l l' : List Pt), l.Perm l' → ∀ xs : List Rat, List.Forall₂ (fun p x => p[i]? = some x) l xs →
      ∃ xs' : List Rat, List.Forall₂ (fun p x => p[i]? = some x) l' xs' ∧ xs'.sum = xs.sum := by
    intro l l' hp
    induction hp with
    | nil => intro xs hx; exact ⟨xs, hx, rfl⟩
    | cons a _ ih =>
      intro xs hx
      cases hx with
      | cons h1 h2 =>
        obtain ⟨xs', h3, h4⟩ := ih _ h2
        exact ⟨_ :: xs', .cons h1 h3, by rw [List.sum_cons, List.sum_cons, h4]⟩
    | swap a b l =>
      intro xs hx
      cases hx with
      | cons h1 h2 =>
        cases h2 with
        | cons h2 h3 => exact ⟨_, .cons h2 (.cons h1 h3), by simp only [List.sum_cons]; ring⟩
    | trans _ _ ih1 ih2 =>
      intro xs hx
      obtain ⟨xs', h1, h2⟩ := ih1 _ hx
      obtain ⟨xs'', h3, h4⟩ := ih2 _ h1
      exact ⟨xs'', h3, h4.trans h2⟩
  obtain ⟨xs', h1, h2⟩ := key _ _ h xs hxs
  exact ⟨xs', h1, by rw [← h.length_eq, h2, e]⟩

theorem putSet_table {g : Graph Q} {pos : Q → Pt} {dim hi : Nat} {d : List (List Q × Pt)} (h : Table g pos dim hi d) {X : List Q} {p : Pt}
    (hX : IsSet g hi X) (hp : IsMean (X.map pos) p ∧ p.length = dim) :
    Table g pos dim hi (putSet d X p) ∧ (∀ e ∈ d, ∃ e' ∈ putSet d X p, e'.1 = e.1) ∧ ∃ e ∈ putSet d X p, sameSet X e.1 = true := by
  unfold putSet
  split
  · rename_i hany
    have hkey : ∀ e : List Q × Pt, (if sameSet X e.1 = true then (e.1, p) else e).1 = e.1 := by intro e; split <;> rfl
    refine ⟨⟨?_, ?_, ?_⟩, ?_, ?_⟩
    · intro e he
      obtain ⟨e', he', rfl⟩ := List.mem_map.mp he
      rw [hkey]; exact h.sets e' he'
    · intro e he
      obtain ⟨e', he', rfl⟩ := List.mem_map.mp he
      split
      · rename_i hs
        have hperm : X.Perm e'.1 := (List.perm_ext_iff_of_nodup hX.nodup (h.sets e' he').nodup).mpr (sameSet_iff.mp hs)
        exact ⟨isMean_perm (hperm.map pos) hp.1, hp.2⟩
      · exact h.mean e' he'
    · rw [List.pairwise_map]
      refine h.distinct.imp fun {a b} hab => ?_
      rw [hkey, hkey]; exact hab
    · intro e he
      exact ⟨_, List.mem_map_of_mem he, hkey e⟩
    · obtain ⟨e, he, hs⟩ := List.any_eq_true.mp hany
      exact ⟨_, List.mem_map_of_mem he, by rw [hkey]; exact hs⟩
  · rename_i hany
    refine ⟨⟨?_, ?_, ?_⟩, ?_, ?_⟩
    · intro e he
      rcases List.mem_append.mp he with he | he
      · exact h.sets e he
      · rw [List.mem_singleton.mp he]; exact hX
    · intro e he
      rcases List.mem_append.mp he with he | he
      · exact h.mean e he
      · rw [List.mem_singleton.mp he]; exact hp
    · rw [List.pairwise_append]
      refine ⟨h.distinct, List.pairwise_singleton _ _, fun a ha b hb => ?_⟩
      rw [List.mem_singleton.mp hb]
      cases hs : sameSet a.1 X with
      | false => rfl
      | true => exact absurd (List.any_eq_true.mpr ⟨a, ha, by rw [sameSet_symm]; exact hs⟩) hany
    · intro e he
      exact ⟨e, List.mem_append_left _ he, rfl⟩
    · exact ⟨(X, p), List.mem_append_right _ (List.mem_singleton.mpr rfl), sameSet_iff.mpr fun _ => Iff.rfl⟩

theorem barycentre_ok {g : Graph Q} {T : List (Q × Pt)} {pos : Q → Pt} {dim : Nat} (hT : ∀ v ∈ g.nodes, T.lookup v = some (pos v) ∧ (pos v).length = dim)
    {k : Nat} {X : List Q} (hne : X ≠ []) (hX : ∀ a ∈ X, a ∈ g.nodes) (h1 : k = 1 → X.length = 1) :
    ∃ p, barycentre T k X = .ok p ∧ IsMean (X.map pos) p ∧ p.length = dim := by
  unfold barycentre
  split
  · rename_i hk
    match X, h1 hk with
    | [v], _ =>
      obtain ⟨hv, hl⟩ := hT v (hX v List.mem_cons_self)
      refine ⟨pos v, item_ok.mpr hv, ⟨by simp, by simp, fun i y hy => ⟨[y], .cons hy .nil, by simp⟩⟩, hl⟩
  · have hm : X.mapM (item T) = .ok (X.map pos) := mapM_item.mpr (forall₂_map fun a ha => (hT a (hX a ha)).1)
    have hr : Rows dim (X.map pos) := by
      intro r hr
      obtain ⟨a, ha, rfl⟩ := List.mem_map.mp hr
      exact (hT a (hX a ha)).2
    obtain ⟨m1, m2⟩ := meanOf_spec hr (by simpa using hne)
    exact ⟨meanOf (X.map pos), by rw [hm]; rfl, m1, m2⟩

/-- Filling in a list of sets. -/
theorem fill_ok {g : Graph Q} {T : List (Q × Pt)} {pos : Q → Pt} {dim hi : Nat} (hT : ∀ v ∈ g.nodes, T.lookup v = some (pos v) ∧ (pos v).length = dim)
    {k : Nat} (l : List (List Q)) (hl : ∀ X ∈ l, IsSet g hi X ∧ (k = 1 → X.length = 1)) :
    ∀ d, Table g pos dim hi d → ∃ d', l.foldlM (fun d X => (do .ok (putSet d X (← barycentre T k X)) : Except Err (List (List Q × Pt)))) d = .ok d' ∧
      Table g pos dim hi d' ∧ (∀ e ∈ d, ∃ e' ∈ d', e'.1 = e.1) ∧ ∀ X ∈ l, ∃ e ∈ d', sameSet X e.1 = true := by
  induction l with
  | nil => intro d hd; exact ⟨d, rfl, hd, fun e he => ⟨e, he, rfl⟩, fun X h => nomatch h⟩
  | cons X l ih =>
    intro d hd
    obtain ⟨hX, h1⟩ := hl X List.mem_cons_self
    obtain ⟨p, ep, mp, lp⟩ := barycentre_ok hT hX.ne hX.nodes h1
    obtain ⟨t1, t2, e1, he1, hs1⟩ := putSet_table hd hX ⟨mp, lp⟩
    obtain ⟨d', ed, td, k1, k2⟩ := ih (fun Y hY => hl Y (List.mem_cons_of_mem _ hY)) _ t1
    refine ⟨d', ?_, td, ?_, ?_⟩
    · rw [List.foldlM_cons, ep]
      exact ed
    · intro e he
      obtain ⟨e', he', h'⟩ := t2 e he
      obtain ⟨e'', he'', h''⟩ := k1 e' he'
      exact ⟨e'', he'', h''.trans h'⟩
    · intro Y hY
      rcases List.mem_cons.mp hY with rfl | hY
      · obtain ⟨e', he', h'⟩ := k1 e1 he1
        exact ⟨e', he', by rw [h']; exact hs1⟩
      · exact k2 Y hY

theorem subsetLayout_ok {order : List (List Q) → List (List Q)} (hord : ∀ l, (order l).Perm l) {g : Graph Q} (hg : g.WF) {T : List (Q × Pt)} {pos : Q → Pt} {dim : Nat}
    (hT : ∀ v ∈ g.nodes, T.lookup v = some (pos v) ∧ (pos v).length = dim) (lo hi : Nat) :
    ∃ d, subsetLayout order g T lo hi = .ok d ∧ Table g pos dim hi d ∧
      ∀ C : List Q, C.Nodup → (∀ a ∈ C, a ∈ g.nodes) → Linked g C → C ≠ [] → lo ≤ C.length → C.length ≤ hi → ∃ e ∈ d, ∀ a, a ∈ C ↔ a ∈ e.1 := by
  have key : ∀ (ks : List Nat), (∀ k ∈ ks, k ≤ hi) → ∀ d, Table g pos dim hi d →
      ∃ d', ks.foldlM (fun d k => (order (connectedSubgraphs g hi k)).foldlM (fun d X => (do .ok (putSet d X (← barycentre T k X)) : Except Err (List (List Q × Pt)))) d) d = .ok d' ∧
        Table g pos dim hi d' ∧ (∀ e ∈ d, ∃ e' ∈ d', e'.1 = e.1) ∧ ∀ k ∈ ks, ∀ X ∈ connectedSubgraphs g hi k, ∃ e ∈ d', sameSet X e.1 = true := by
    intro ks
    induction ks with
    | nil => intro _ d hd; exact ⟨d, rfl, hd, fun e he => ⟨e, he, rfl⟩, fun k h => nomatch h⟩
    | cons k ks ih =>
      intro hks d hd
      have hsets : ∀ X ∈ order (connectedSubgraphs g hi k), IsSet g hi X ∧ (k = 1 → X.length = 1) := by
        intro X hX
        have hX' := (hord _).mem_iff.mp hX
        obtain ⟨a1, a2, a3, a4, a5⟩ := C55_connected_partial hg hi k X hX'
        refine ⟨⟨a1, a2, a3, a4, Nat.le_trans a5 (hks k List.mem_cons_self)⟩, fun hk => ?_⟩
        have := List.length_pos_iff.mpr a1
        omega
      obtain ⟨d1, e1, t1, k1, k2⟩ := fill_ok hT _ hsets d hd
      obtain ⟨d2, e2, t2, k3, k4⟩ := ih (fun k hk => hks k (List.mem_cons_of_mem _ hk)) d1 t1
      refine ⟨d2, ?_, t2, ?_, ?_⟩
      · rw [List.foldlM_cons, e1]
        exact e2
      · intro e he
        obtain ⟨e', he', h'⟩ := k1 e he
        obtain ⟨e'', he'', h''⟩ := k3 e' he'
        exact ⟨e'', he'', h''.trans h'⟩
      · intro k' hk' X hX
        rcases List.mem_cons.mp hk' with rfl | hk'
        · obtain ⟨e, he, hs⟩ := k2 X ((hord _).mem_iff.mpr hX)
          obtain ⟨e', he', h'⟩ := k3 e he
          exact ⟨e', he', by rw [h']; exact hs⟩
        · exact k4 k' hk' X hX
  have hks : ∀ k ∈ List.range' lo (hi + 1 - lo), k ≤ hi := by
    intro k hk
    have := List.mem_range'_1.mp hk
    omega
  obtain ⟨d, e, t, _, h⟩ := key _ hks [] ⟨(fun e h => nomatch h), (fun e h => nomatch h), List.Pairwise.nil⟩
  refine ⟨d, e, t, fun C hn hs hC hne h1 h2 => ?_⟩
  obtain ⟨X, hX, hXC⟩ := C55_none_missing hg hi C hn hs hC hne h2
  obtain ⟨e, he, hs⟩ := h C.length (List.mem_range'_1.mpr (by omega)) X hX
  exact ⟨e, he, fun a => (hXC a).symm.trans (sameSet_iff.mp hs a)⟩

/-! ### The choice -/

theorem setAt_spec {d : List (List Q × Pt)} {e : List Q × Pt} (he : e ∈ d) : ∃ X, setAt d e.2 = some X ∧ (X, e.2) ∈ d := by
  unfold setAt
  cases hf : d.reverse.find? (fun x => decide (x.2 = e.2)) with
  | none =>
    have := List.find?_eq_none.mp hf e (List.mem_reverse.mpr he)
    simp at this
  | some x =>
    have h1 := List.mem_reverse.mp (List.mem_of_find?_eq_some hf)
    have h2 := List.find?_some hf
    rw [decide_eq_true_eq] at h2
    exact ⟨x.1, rfl, h2 ▸ h1⟩

/-- The sets of the neighbours. -/
theorem nearSets_ok {d : List (List Q × Pt)} {found : List (Rat × Nat)} (h : ∀ r ∈ found, r.2 < d.length) :
    ∃ near, nearSets d found = .ok near ∧
      List.Forall₂ (fun r e => r.1 = e.2 ∧ ∃ q, (d.map Prod.snd)[r.2]? = some q ∧ (e.1, q) ∈ d) found near := by
  induction found with
  | nil => exact ⟨[], rfl, .nil⟩
  | cons r found ih =>
    obtain ⟨near, e, hn⟩ := ih fun r hr => h r (List.mem_cons_of_mem _ hr)
    have hlt := h r List.mem_cons_self
    have hd : d[r.2]? = some d[r.2] := List.getElem?_eq_getElem hlt
    obtain ⟨X, hX, hXd⟩ := setAt_spec (List.getElem_mem hlt)
    refine ⟨(X, r.1) :: near, ?_, .cons ⟨rfl, d[r.2].2, by rw [List.getElem?_map, hd]; rfl, hXd⟩ hn⟩
    unfold nearSets at e ⊢
    rw [List.mapM_cons, e, hd]
    simp only [hX]
    rfl

theorem putCost_mem {l : List (List Q × Rat)} {X : List Q} {c : Rat} {e : List Q × Rat} (h : e ∈ putCost l X c) :
    (∃ e' ∈ l, e.1 = e'.1 ∧ (e = e' ∨ sameSet X e'.1 = true ∧ e.2 = c)) ∨ e = (X, c) := by
  unfold putCost at h
  split at h
  · obtain ⟨e', he', rfl⟩ := List.mem_map.mp h
    left
    refine ⟨e', he', ?_⟩
    split
    · rename_i hs; exact ⟨rfl, .inr ⟨hs, rfl⟩⟩
    · exact ⟨rfl, .inl rfl⟩
  · rcases List.mem_append.mp h with h | h
    · exact .inl ⟨e, h, rfl, .inl rfl⟩
    · exact .inr (List.mem_singleton.mp h)

theorem putCost_new (l : List (List Q × Rat)) (X : List Q) (c : Rat) : ∃ e ∈ putCost l X c, sameSet X e.1 = true ∧ e.2 = c := by
  unfold putCost
  split
  · rename_i h
    obtain ⟨e, he, hs⟩ := List.any_eq_true.mp h
    refine ⟨_, List.mem_map_of_mem he, ?_⟩
    rw [if_pos hs]; exact ⟨hs, rfl⟩
  · exact ⟨(X, c), List.mem_append_right _ (List.mem_singleton.mpr rfl), sameSet_iff.mpr fun _ => Iff.rfl, rfl⟩

theorem putCost_old {l : List (List Q × Rat)} {X : List Q} {c : Rat} {e : List Q × Rat} (h : e ∈ l) :
    ∃ e' ∈ putCost l X c, e'.1 = e.1 ∧ (e' = e ∨ sameSet X e.1 = true ∧ e'.2 = c) := by
  unfold putCost
  split
  · refine ⟨_, List.mem_map_of_mem h, ?_⟩
    split
    · rename_i hs; exact ⟨rfl, .inr ⟨hs, rfl⟩⟩
    · exact ⟨rfl, .inl rfl⟩
  · exact ⟨e, List.mem_append_left _ h, rfl, .inl rfl⟩

/-- If the cost depends on the set alone, the dict contains the cost of every neighbour. -/
theorem costs_spec {big base : Nat} {used : List Q} {cost : List Q → Rat} (near : List (List Q × Rat))
    (hset : ∀ e ∈ near, ∀ e' ∈ near, sameSet e.1 e'.1 = true → e.1 = e'.1)
    (hc : ∀ e ∈ near, e.2 + penalty base used e.1 = cost e.1) {l : List (List Q × Rat)} (h : costs big base used near = some l) :
    (∀ e ∈ l, (∃ e' ∈ near, e'.1 = e.1) ∧ e.2 = cost e.1) ∧ ∀ e ∈ near, ∃ e' ∈ l, e'.1 = e.1 := by
  have key : ∀ (rest : List (List Q × Rat)), (∀ e ∈ rest, e ∈ near) → ∀ acc l, (∀ e ∈ acc, (∃ e' ∈ near, e'.1 = e.1) ∧ e.2 = cost e.1) →
      rest.foldlM (fun l e => if big ≤ penalty base used e.1 then none else some (putCost l e.1 (e.2 + penalty base used e.1))) acc = some l →
      (∀ e ∈ l, (∃ e' ∈ near, e'.1 = e.1) ∧ e.2 = cost e.1) ∧ (∀ e ∈ acc, ∃ e' ∈ l, e'.1 = e.1) ∧ ∀ e ∈ rest, ∃ e' ∈ l, e'.1 = e.1 := by
    intro rest
    induction rest with
    | nil =>
      intro _ acc l hacc hl
      cases hl
      exact ⟨hacc, fun e he => ⟨e, he, rfl⟩, fun e h => nomatch h⟩
    | cons a rest ih =>
      intro hr acc l hacc hl
      have ha := hr a List.mem_cons_self
      rw [List.foldlM_cons] at hl
      by_cases hb : big ≤ penalty base used a.1
      · rw [if_pos hb] at hl; cases hl
      · rw [if_neg hb] at hl
        have hacc' : ∀ e ∈ putCost acc a.1 (a.2 + penalty base used a.1), (∃ e' ∈ near, e'.1 = e.1) ∧ e.2 = cost e.1 := by
          intro e he
          rcases putCost_mem he with ⟨e', he', h1, h2⟩ | h2
          · obtain ⟨⟨x, hx, hx1⟩, h3⟩ := hacc e' he'
            refine ⟨⟨x, hx, hx1.trans h1.symm⟩, ?_⟩
            rcases h2 with rfl | ⟨hs, h2⟩
            · exact h3
            · rw [h2, hc a ha, h1, ← hx1]
              rw [← hx1] at hs
              rw [hset a ha x hx hs]
          · rw [h2]; exact ⟨⟨a, ha, rfl⟩, hc a ha⟩
        obtain ⟨k1, k2, k3⟩ := ih (fun e he => hr e (List.mem_cons_of_mem _ he)) _ l hacc' hl
        refine ⟨k1, ?_, ?_⟩
        · intro e he
          obtain ⟨e', he', h1, _⟩ := putCost_old (X := a.1) (c := a.2 + penalty base used a.1) he
          obtain ⟨e'', he'', h2⟩ := k2 e' he'
          exact ⟨e'', he'', h2.trans h1⟩
        · intro e he
          rcases List.mem_cons.mp he with rfl | he
          · obtain ⟨e', he', hs, _⟩ := putCost_new acc e.1 (e.2 + penalty base used e.1)
            obtain ⟨⟨x, hx, hx1⟩, _⟩ := hacc' e' he'
            obtain ⟨e'', he'', h2⟩ := k2 e' he'
            refine ⟨e'', he'', h2.trans ?_⟩
            rw [← hx1] at hs ⊢
            exact (hset e ha x hx hs).symm
          · exact k3 e he
  obtain ⟨k1, _, k3⟩ := key near (fun e h => h) [] l (fun e h => nomatch h) h
  exact ⟨k1, k3⟩

theorem cheapest_spec {l : List (List Q × Rat)} : (cheapest l = none ↔ l = []) ∧ ∀ b, cheapest l = some b → b ∈ l ∧ ∀ e ∈ l, b.2 ≤ e.2 := by
  induction l with
  | nil => exact ⟨⟨fun _ => rfl, fun _ => rfl⟩, fun b h => nomatch h⟩
  | cons e l ih =>
    unfold cheapest
    cases hc : cheapest l with
    | none =>
      have hl := ih.1.mp hc
      refine ⟨⟨(fun h => nomatch h), (fun h => nomatch h)⟩, fun b hb => ?_⟩
      have : e = b := Option.some.inj hb
      rw [← this, hl]
      exact ⟨List.mem_cons_self, fun x hx => by rw [List.mem_singleton.mp hx]⟩
    | some m =>
      obtain ⟨h1, h2⟩ := ih.2 m hc
      refine ⟨⟨fun h => ?_, fun h => nomatch h⟩, fun b hb => ?_⟩
      · dsimp only at h; split at h <;> cases h
      · dsimp only at hb
        split at hb
        · rename_i hlt
          have : m = b := Option.some.inj hb
          rw [← this]
          refine ⟨List.mem_cons_of_mem _ h1, fun x hx => ?_⟩
          rcases List.mem_cons.mp hx with rfl | hx
          · exact le_of_lt hlt
          · exact h2 x hx
        · rename_i hlt
          have : e = b := Option.some.inj hb
          rw [← this]
          refine ⟨List.mem_cons_self, fun x hx => ?_⟩
          rcases List.mem_cons.mp hx with rfl | hx
          · exact le_refl _
          · exact le_trans (not_lt.mp hlt) (h2 x hx)

theorem costs_none {big base : Nat} {used : List Q} {near : List (List Q × Rat)} :
    costs big base used near = none ↔ ∃ e ∈ near, big ≤ penalty base used e.1 := by
  have key : ∀ (near acc : List (List Q × Rat)),
      near.foldlM (fun l e => if big ≤ penalty base used e.1 then none else some (putCost l e.1 (e.2 + penalty base used e.1))) acc = none ↔
        ∃ e ∈ near, big ≤ penalty base used e.1 := by
    intro near
    induction near with
    | nil =>
      intro acc
      exact ⟨fun h => (Option.some_ne_none _ h).elim, fun ⟨e, h, _⟩ => (List.not_mem_nil h).elim⟩
    | cons a near ih =>
      intro acc
      rw [List.foldlM_cons]
      by_cases hb : big ≤ penalty base used a.1
      · rw [if_pos hb]
        exact ⟨fun _ => ⟨a, List.mem_cons_self, hb⟩, fun _ => rfl⟩
      · rw [if_neg hb]
        refine (ih _).trans ⟨fun ⟨e, he, h⟩ => ⟨e, List.mem_cons_of_mem _ he, h⟩, fun ⟨e, he, h⟩ => ?_⟩
        rcases List.mem_cons.mp he with rfl | he
        · exact absurd h hb
        · exact ⟨e, he, h⟩
  exact key near []

end Lay
end MM
