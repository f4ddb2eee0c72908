import Verif.Cache.Regular
import Verif.Spec.Clique
import Verif.Spec.Matching
import Mathlib.Data.List.Nodup
import Mathlib.Data.List.Dedup

/-! What growing the chains keeps. -/

namespace MM
namespace Cache
open Spec

theorem mem_boundary {edges : List (Nat × Nat)} {chain rest : List Nat} {q : Nat} :
    q ∈ boundary edges chain rest ↔ q ∈ rest ∧ q ∉ chain ∧ ∃ p ∈ chain, Coupler edges p q := by
  simp only [boundary, List.mem_filter, Bool.and_eq_true, Bool.not_eq_true', List.contains_eq_mem, decide_eq_false_iff_not, List.any_eq_true, Bool.or_eq_true, decide_eq_true_eq, Coupler]

theorem mem_places {edges : List (Nat × Nat)} {L : Nat} {rest : List Nat} {i : Nat} {chain : List Nat} {v : Place} :
    v ∈ places edges L rest i chain ↔ v.1 = i ∧ chain.length ≤ v.2 ∧ v.2 < L ∧ boundary edges chain rest ≠ [] := by
  unfold places
  obtain ⟨a, b⟩ := v
  split
  · rename_i h
    simp only [List.not_mem_nil, false_iff]
    omega
  · split
    · rename_i h; simp [h]
    · rename_i h h'
      simp only [List.mem_map, List.mem_range'_1, Prod.mk.injEq]
      constructor
      · rintro ⟨j, hj, rfl, rfl⟩; exact ⟨rfl, hj.1, by omega, h'⟩
      · rintro ⟨rfl, h1, h2, _⟩; exact ⟨b, ⟨h1, by omega⟩, rfl, rfl⟩

theorem mem_topNodes {edges : List (Nat × Nat)} {L : Nat} {rest : List Nat} {emb : Emb} {v : Place} :
    v ∈ topNodes edges L rest emb ↔ ∃ c, emb[v.1]? = some c ∧ c.length ≤ v.2 ∧ v.2 < L ∧ boundary edges c rest ≠ [] := by
  simp only [topNodes, List.mem_flatMap, mem_places, Prod.exists, List.mem_zipIdx_iff_getElem?]
  constructor
  · rintro ⟨c, i, h, rfl, h1⟩; exact ⟨c, h, h1⟩
  · rintro ⟨c, h, h1⟩; exact ⟨c, v.1, h, rfl, h1⟩

theorem mem_matchEdges {edges : List (Nat × Nat)} {L : Nat} {rest : List Nat} {emb : Emb} {e : Place × Nat} :
    e ∈ matchEdges edges L rest emb ↔ ∃ c, emb[e.1.1]? = some c ∧ c.length ≤ e.1.2 ∧ e.1.2 < L ∧ e.2 ∈ boundary edges c rest := by
  obtain ⟨v, q⟩ := e
  simp only [matchEdges, List.mem_flatMap, mem_places, Prod.exists, List.mem_zipIdx_iff_getElem?, List.mem_map, Prod.mk.injEq]
  constructor
  · rintro ⟨c, i, h, a, b, ⟨rfl, h1, h2, _⟩, p, hp, ⟨rfl, rfl⟩, rfl⟩; exact ⟨c, h, h1, h2, hp⟩
  · rintro ⟨c, h, h1, h2, h3⟩; exact ⟨c, v.1, h, v.1, v.2, ⟨rfl, h1, h2, List.ne_nil_of_mem h3⟩, q, h3, rfl, rfl⟩

theorem nodup_topNodes {edges : List (Nat × Nat)} {L : Nat} {rest : List Nat} {emb : Emb} : (topNodes edges L rest emb).Nodup := by
  unfold topNodes
  rw [List.nodup_flatMap]
  refine ⟨fun p _ => ?_, ?_⟩
  · unfold places
    split
    · exact List.nodup_nil
    · split
      · exact List.nodup_nil
      · exact List.Nodup.map (fun a b h => (Prod.mk.inj h).2) List.nodup_range'
  · have : (emb.zipIdx.map Prod.snd).Nodup := by
      rw [List.zipIdx_map_snd]; exact List.nodup_range'
    rw [List.nodup_iff_pairwise_ne, List.pairwise_map] at this
    refine this.imp fun {p q} h => ?_
    intro v h1 h2
    exact h ((mem_places.mp h1).1.symm.trans (mem_places.mp h2).1)

theorem count_places (edges : List (Nat × Nat)) (L : Nat) (rest : List Nat) (i k : Nat) (c : List Nat) :
    (places edges L rest k c).countP (fun v => v.1 = i) ≤ if k = i then L - c.length else 0 := by
  split
  · rename_i h
    refine Nat.le_trans List.countP_le_length ?_
    unfold places
    split
    · simp
    · split <;> simp
  · rename_i h
    refine Nat.le_of_eq (List.countP_eq_zero.mpr fun v hv => ?_)
    simp only [decide_eq_true_eq]
    rw [(mem_places.mp hv).1]; exact h

theorem count_aux (edges : List (Nat × Nat)) (L : Nat) (rest : List Nat) (i : Nat) (emb : Emb) : ∀ k,
    ((emb.zipIdx k).flatMap fun p => places edges L rest p.2 p.1).countP (fun v => v.1 = i) ≤
      if k ≤ i then (match emb[i - k]? with | some c => L - c.length | none => 0) else 0 := by
  induction emb with
  | nil => intro k; simp
  | cons c cs ih =>
    intro k
    rw [List.zipIdx_cons, List.flatMap_cons, List.countP_append]
    have h1 := count_places edges L rest i k c
    have h2 := ih (k + 1)
    by_cases hk : k = i
    · subst hk
      simp only [if_pos] at h1
      rw [if_neg (by omega)] at h2
      simp only [Nat.le_refl, if_pos, Nat.sub_self, List.getElem?_cons_zero]
      omega
    · rw [if_neg hk] at h1
      have h1 : List.countP (fun v => decide (v.1 = i)) (places edges L rest (c, k).2 (c, k).1) = 0 := Nat.le_zero.mp h1
      by_cases hl : k ≤ i
      · rw [if_pos (by omega)] at h2
        rw [if_pos hl, show i - k = (i - (k + 1)) + 1 by omega, List.getElem?_cons_succ]
        omega
      · rw [if_neg (by omega)] at h2
        rw [if_neg hl]
        omega

theorem count_topNodes {edges : List (Nat × Nat)} {L : Nat} {rest : List Nat} {emb : Emb} {i : Nat} {c : List Nat} (h : emb[i]? = some c) :
    (topNodes edges L rest emb).countP (fun v => v.1 = i) ≤ L - c.length := by
  have := count_aux edges L rest i emb 0
  simp only [Nat.zero_le, if_pos, Nat.sub_zero, h] at this
  exact this

/-- What holds between the rounds: the chains are an embedding, they continue the chains at the start up to the length `L`, and `rest` is what is unused. -/
structure Grows (nodes : List Nat) (edges : List (Nat × Nat)) (emb0 : Emb) (L : Nat) (s : Growing) : Prop where
  valid : CliqueEmbedding nodes edges s.emb
  same : s.emb.length = emb0.length
  prefixes : ∀ (i : Nat) (c : List Nat), s.emb[i]? = some c → ∃ c0 : List Nat, emb0[i]? = some c0 ∧ c0 <+: c
  short : ∀ (i : Nat) (c : List Nat), s.emb[i]? = some c → c.length ≤ L
  unused : ∀ q, q ∈ s.rest ↔ q ∈ nodes ∧ ∀ c ∈ s.emb, q ∉ c

theorem isChain_snoc {nodes : List Nat} {edges : List (Nat × Nat)} {c : List Nat} {p q : Nat} (h : IsChain nodes edges c) (hp : p ∈ c) (hq : q ∈ nodes) (hc : Coupler edges p q) : IsChain nodes edges (c ++ [q]) := by
  have lift : ∀ a b, Relation.ReflTransGen (fun a b => a ∈ c ∧ b ∈ c ∧ Coupler edges a b) a b → Relation.ReflTransGen (fun a b => a ∈ c ++ [q] ∧ b ∈ c ++ [q] ∧ Coupler edges a b) a b :=
    fun a b hab => by
      induction hab with
      | refl => exact .refl
      | tail _ hxy ih => exact ih.tail ⟨by simp [hxy.1], by simp [hxy.2.1], hxy.2.2⟩
  have sym : ∀ a b, Coupler edges a b → Coupler edges b a := fun a b hab => hab.symm
  have toq : ∀ a ∈ c, Relation.ReflTransGen (fun a b => a ∈ c ++ [q] ∧ b ∈ c ++ [q] ∧ Coupler edges a b) a q :=
    fun a ha => (lift _ _ (h.connected a ha p hp)).tail ⟨by simp [hp], by simp, hc⟩
  have back : ∀ a ∈ c, Relation.ReflTransGen (fun a b => a ∈ c ++ [q] ∧ b ∈ c ++ [q] ∧ Coupler edges a b) q a :=
    fun a ha => Relation.ReflTransGen.head ⟨by simp, by simp [hp], sym _ _ hc⟩ (lift _ _ (h.connected p hp a ha))
  refine ⟨by simp, ?_, ?_⟩
  · intro a ha
    rcases List.mem_append.mp ha with ha | ha
    · exact h.qubits a ha
    · rw [List.mem_singleton] at ha; subst ha; exact hq
  · intro a ha b hb
    rcases List.mem_append.mp ha with ha' | ha' <;> rcases List.mem_append.mp hb with hb' | hb'
    · exact lift _ _ (h.connected a ha' b hb')
    · rw [List.mem_singleton] at hb'; subst hb'; exact toq a ha'
    · rw [List.mem_singleton] at ha'; subst ha'; exact back b hb'
    · rw [List.mem_singleton] at ha' hb'; subst ha'; subst hb'; exact .refl

theorem getElem?_modify_some {emb : Emb} {i j : Nat} {f : List Nat → List Nat} {d : List Nat} : (emb.modify i f)[j]? = some d ↔ ∃ c, emb[j]? = some c ∧ d = if i = j then f c else c := by
  rw [List.getElem?_modify]
  cases emb[j]? <;> simp [eq_comm]

/-- One node is added to one chain. -/
theorem Grows.step {nodes : List Nat} {edges : List (Nat × Nat)} {emb0 : Emb} {L : Nat} {s : Growing} (h : Grows nodes edges emb0 L s) {i q : Nat} {c : List Nat} (hc : s.emb[i]? = some c)
    (hl : c.length < L) (hq : q ∈ s.rest) {p : Nat} (hp : p ∈ c) (hpq : Coupler edges p q) :
    Grows nodes edges emb0 L ⟨s.emb.modify i (· ++ [q]), s.rest.filter (· ≠ q)⟩ := by
  obtain ⟨hqn, hqu⟩ := (h.unused q).mp hq
  have get : ∀ {j d}, (s.emb.modify i (· ++ [q]))[j]? = some d → ∃ c', s.emb[j]? = some c' ∧ d = if i = j then c' ++ [q] else c' := fun hj => getElem?_modify_some.mp hj
  have sup : ∀ {c' : List Nat} {j : Nat} {x : Nat}, x ∈ (if i = j then c' ++ [q] else c') → x ∈ c' ∨ x = q ∧ i = j := by
    intro c' j x hx
    split at hx
    · rcases List.mem_append.mp hx with hx | hx
      · exact .inl hx
      · exact .inr ⟨by simpa using hx, by assumption⟩
    · exact .inl hx
  have sub : ∀ {c' : List Nat} {j : Nat} {x : Nat}, x ∈ c' → x ∈ (if i = j then c' ++ [q] else c') := by
    intro c' j x hx
    split
    · simp [hx]
    · exact hx
  have old : ∀ {j c'}, s.emb[j]? = some c' → c' ∈ s.emb := fun hj => List.mem_of_getElem? hj
  refine ⟨⟨?_, ?_, ?_⟩, ?_, ?_, ?_, ?_⟩
  · intro d hd
    obtain ⟨j, hj⟩ := List.getElem?_of_mem hd
    obtain ⟨c', h1, rfl⟩ := get hj
    split
    · rename_i e; subst e
      rw [hc] at h1; cases h1
      exact isChain_snoc (h.valid.chains c (old hc)) hp hqn hpq
    · exact h.valid.chains c' (old h1)
  · have := h.valid.disjoint
    rw [List.pairwise_iff_getElem] at this ⊢
    intro a b ha hb hab x hx hy
    rw [List.length_modify] at ha hb
    obtain ⟨c1, g1, e1⟩ := get (List.getElem?_eq_getElem (by rw [List.length_modify]; exact ha))
    obtain ⟨c2, g2, e2⟩ := get (List.getElem?_eq_getElem (by rw [List.length_modify]; exact hb))
    rw [e1] at hx; rw [e2] at hy
    rw [List.getElem?_eq_getElem ha] at g1; rw [List.getElem?_eq_getElem hb] at g2
    cases g1; cases g2
    rcases sup hx with hx | ⟨rfl, e⟩ <;> rcases sup hy with hy | ⟨e', e''⟩
    · exact this a b ha hb hab x hx hy
    · rw [e'] at hx; exact hqu _ (List.getElem_mem ha) hx
    · exact hqu _ (old (List.getElem?_eq_getElem (by assumption))) hy
    · omega
  · have := h.valid.adjacent
    rw [List.pairwise_iff_getElem] at this ⊢
    intro a b ha hb hab
    rw [List.length_modify] at ha hb
    obtain ⟨c1, g1, e1⟩ := get (List.getElem?_eq_getElem (by rw [List.length_modify]; exact ha))
    obtain ⟨c2, g2, e2⟩ := get (List.getElem?_eq_getElem (by rw [List.length_modify]; exact hb))
    rw [e1, e2]
    rw [List.getElem?_eq_getElem ha] at g1; rw [List.getElem?_eq_getElem hb] at g2
    cases g1; cases g2
    obtain ⟨x, hx, y, hy, hxy⟩ := this a b ha hb hab
    exact ⟨x, sub hx, y, sub hy, hxy⟩
  · rw [List.length_modify]; exact h.same
  · intro j d hd
    obtain ⟨c', h1, rfl⟩ := get hd
    obtain ⟨c0, h2, h3⟩ := h.prefixes j c' h1
    refine ⟨c0, h2, ?_⟩
    split
    · exact h3.trans (List.prefix_append _ _)
    · exact h3
  · intro j d hd
    obtain ⟨c', h1, rfl⟩ := get hd
    split
    · rename_i e; subst e
      rw [hc] at h1; cases h1
      rw [List.length_append, List.length_singleton]; omega
    · exact h.short j c' h1
  · intro x
    rw [List.mem_filter, h.unused]
    simp only [ne_eq, decide_not, Bool.not_eq_true', decide_eq_false_iff_not]
    constructor
    · rintro ⟨⟨h1, h2⟩, h3⟩
      refine ⟨h1, fun d hd hx => ?_⟩
      obtain ⟨j, hj⟩ := List.getElem?_of_mem hd
      obtain ⟨c', g1, rfl⟩ := get hj
      rcases sup hx with hx | ⟨hx, _⟩
      · exact h2 c' (old g1) hx
      · exact h3 hx
    · rintro ⟨h1, h2⟩
      refine ⟨⟨h1, fun c' hc' hx => ?_⟩, fun e => ?_⟩
      · obtain ⟨j, hj⟩ := List.getElem?_of_mem hc'
        exact h2 _ (List.mem_of_getElem? (getElem?_modify_some.mpr ⟨c', hj, rfl⟩)) (sub (j := j) hx)
      · subst e
        refine h2 (c ++ [x]) (List.mem_of_getElem? (i := i) (getElem?_modify_some.mpr ⟨c, hc, by rw [if_pos rfl]⟩)) (by simp)

/-- A round. -/
theorem Grows.fold {nodes : List Nat} {edges : List (Nat × Nat)} {emb0 : Emb} {L : Nat} {partner : Place → Option Nat} (vs : List Place) : ∀ (s : Growing), Grows nodes edges emb0 L s → vs.Nodup →
    (∀ v ∈ vs, ∀ q, partner v = some q → q ∈ s.rest ∧ ∃ c, s.emb[v.1]? = some c ∧ ∃ p ∈ c, Coupler edges p q) →
    (∀ v ∈ vs, ∀ w ∈ vs, ∀ q, partner v = some q → partner w = some q → v = w) →
    (∀ (i : Nat) (c : List Nat), s.emb[i]? = some c → c.length + vs.countP (fun v => v.1 = i) ≤ L) →
    Grows nodes edges emb0 L (vs.foldl (fun s v => grow s v (partner v)) s) ∧ (vs.foldl (fun s v => grow s v (partner v)) s).rest.length ≤ s.rest.length ∧
      ((vs.any fun v => (partner v).isSome) = true → (vs.foldl (fun s v => grow s v (partner v)) s).rest.length < s.rest.length) ∧
      ((vs.any fun v => (partner v).isSome) = false → vs.foldl (fun s v => grow s v (partner v)) s = s) := by
  induction vs with
  | nil => intro s h _ _ _ _; exact ⟨h, Nat.le_refl _, fun h => (by cases h), fun _ => rfl⟩
  | cons v vs ih =>
    intro s h hn hp hi hl
    rw [List.nodup_cons] at hn
    rw [List.foldl_cons]
    cases hv : partner v with
    | none =>
      obtain ⟨a1, a2, a3, a4⟩ := ih s h hn.2 (fun w hw => hp w (by simp [hw])) (fun w hw x hx => hi w (by simp [hw]) x (by simp [hx])) (fun i c hc => by
        have := hl i c hc; rw [List.countP_cons] at this; omega)
      refine ⟨a1, a2, fun hany => ?_, fun hany => ?_⟩
      · rw [List.any_cons, hv] at hany; exact a3 (by simpa using hany)
      · rw [List.any_cons, hv] at hany; exact a4 (by simpa using hany)
    | some q =>
      obtain ⟨hq, c, hc, p, hpc, hpq⟩ := hp v (by simp) q hv
      have hlen : c.length < L := by
        have := hl v.1 c hc
        rw [List.countP_cons_of_pos (by simp)] at this
        omega
      have h' := h.step hc hlen hq hpc hpq
      have hrest : (s.rest.filter (· ≠ q)).length < s.rest.length := by
        have := List.length_filter_lt_length_iff_exists (p := fun x => decide (x ≠ q)) (l := s.rest)
        exact this.mpr ⟨q, hq, by simp⟩
      obtain ⟨a1, a2, a3, a4⟩ := ih _ h' hn.2 (fun w hw q' hq' => by
        obtain ⟨b1, c', b2, p', b3, b4⟩ := hp w (by simp [hw]) q' hq'
        refine ⟨?_, _, getElem?_modify_some.mpr ⟨c', b2, rfl⟩, p', ?_, b4⟩
        · simp only [List.mem_filter, decide_eq_true_eq]
          refine ⟨b1, fun e => ?_⟩
          subst e
          have := hi v (by simp) w (by simp [hw]) q' hv hq'
          subst this
          exact hn.1 hw
        · split <;> simp [b3]) (fun w hw x hx => hi w (by simp [hw]) x (by simp [hx])) (fun i d hd => by
          obtain ⟨c', b1, rfl⟩ := getElem?_modify_some.mp hd
          have := hl i c' b1
          rw [List.countP_cons] at this
          split
          · rename_i e; subst e
            simp only [decide_true, if_pos] at this
            rw [List.length_append, List.length_singleton]; omega
          · omega)
      refine ⟨a1, Nat.le_trans a2 (Nat.le_of_lt hrest), fun _ => Nat.lt_of_le_of_lt a2 hrest, fun hany => ?_⟩
      rw [List.any_cons, hv] at hany; simp at hany

/-- Nothing more can be done: a chain that is too short has no unused neighbour. -/
def Stuck (edges : List (Nat × Nat)) (L : Nat) (s : Growing) : Prop := ∀ c ∈ s.emb, c.length < L → boundary edges c s.rest = []

theorem uneven_false {emb : Emb} (h : uneven emb = false) : ∀ c ∈ emb, ∀ d ∈ emb, c.length = d.length := by
  intro c hc d hd
  simp only [uneven, ne_eq, decide_not, Bool.not_eq_eq_eq_not, Bool.not_false, decide_eq_true_eq] at h
  obtain ⟨x, hx⟩ := List.length_eq_one_iff.mp h
  have h1 : c.length ∈ (emb.map List.length).dedup := List.mem_dedup.mpr (List.mem_map_of_mem hc)
  have h2 : d.length ∈ (emb.map List.length).dedup := List.mem_dedup.mpr (List.mem_map_of_mem hd)
  rw [hx, List.mem_singleton] at h1 h2
  rw [h1, h2]

theorem growLoop_ok {matcher : Matcher} (hm : ∀ top E, top.Nodup → (∀ e ∈ E, e.1 ∈ top) → MaximumMatching top E (matcher top E)) {nodes : List Nat} {edges : List (Nat × Nat)} {emb0 : Emb} {L : Nat}
    (h0 : ∃ (i : Nat) (c : List Nat), emb0[i]? = some c ∧ c.length = L) : ∀ (fuel : Nat) (s : Growing), Grows nodes edges emb0 L s → s.rest.length < fuel →
      ∃ s', growLoop matcher edges L fuel s = some s' ∧ Grows nodes edges emb0 L s' ∧ Stuck edges L s' := by
  intro fuel
  induction fuel with
  | zero => intro s _ hf; omega
  | succ fuel ih =>
    intro s h hf
    have hE : ∀ e ∈ matchEdges edges L s.rest s.emb, e.1 ∈ topNodes edges L s.rest s.emb := by
      intro e he
      obtain ⟨c, h1, h2, h3, h4⟩ := mem_matchEdges.mp he
      exact mem_topNodes.mpr ⟨c, h1, h2, h3, List.ne_nil_of_mem h4⟩
    have hM := hm _ _ nodup_topNodes hE
    simp only [growLoop]
    generalize hp : matcher (topNodes edges L s.rest s.emb) (matchEdges edges L s.rest s.emb) = partner at hM ⊢
    obtain ⟨a1, a2, a3, a4⟩ := Grows.fold (partner := partner) (topNodes edges L s.rest s.emb) s h nodup_topNodes
      (fun v hv q hq => by
        obtain ⟨c, b1, _, _, b4⟩ := mem_matchEdges.mp (hM.edges v hv q hq)
        obtain ⟨c1, _, p, c3, c4⟩ := mem_boundary.mp b4
        exact ⟨c1, c, b1, p, c3, c4⟩)
      hM.apart (fun i c hc => by
        have := count_topNodes (edges := edges) (L := L) (rest := s.rest) hc
        have := h.short i c hc
        omega)
    generalize hs' : (topNodes edges L s.rest s.emb).foldl (fun s v => grow s v (partner v)) s = s' at a1 a2 a3 a4
    split
    · rename_i hany
      split
      · exact ih s' a1 (by have := a3 hany; omega)
      · rename_i hu
        refine ⟨s', rfl, a1, fun c hc hl => ?_⟩
        obtain ⟨i, c0, g1, g2⟩ := h0
        have hi : i < s'.emb.length := by rw [a1.same]; exact (List.getElem?_eq_some_iff.mp g1).1
        obtain ⟨c0', g3, g4⟩ := a1.prefixes i _ (List.getElem?_eq_getElem hi)
        rw [g1] at g3; cases g3
        have := uneven_false (by simpa using hu) c hc _ (List.getElem_mem hi)
        have := g4.length_le
        omega
    · rename_i hany
      have hany : ((topNodes edges L s.rest s.emb).any fun v => (partner v).isSome) = false := by simpa using hany
      rw [a4 hany] at a1 ⊢
      refine ⟨s, rfl, h, fun c hc hl => ?_⟩
      by_contra hne
      obtain ⟨q, hq⟩ := List.exists_mem_of_ne_nil _ hne
      obtain ⟨i, hi⟩ := List.getElem?_of_mem hc
      have hv : (i, c.length) ∈ topNodes edges L s.rest s.emb := mem_topNodes.mpr ⟨c, hi, Nat.le_refl _, hl, hne⟩
      have he : ((i, c.length), q) ∈ matchEdges edges L s.rest s.emb := mem_matchEdges.mpr ⟨c, hi, Nat.le_refl _, hl, hq⟩
      have one : ∀ v x, (if v = (i, c.length) then some q else none) = some x → v = (i, c.length) ∧ x = q := by
        intro v x hx
        split at hx
        · cases hx; exact ⟨by assumption, rfl⟩
        · cases hx
      have := hM.most (fun v => if v = (i, c.length) then some q else none) ⟨fun v _ x hx => (by obtain ⟨rfl, rfl⟩ := one v x hx; exact he),
        fun v _ w _ x hx hy => (one v x hx).1.trans (one w x hy).1.symm⟩
      have z : ((topNodes edges L s.rest s.emb).filter fun v => (partner v).isSome).length = 0 := by
        rw [List.length_eq_zero_iff, List.filter_eq_nil_iff]
        intro v hv'
        have := (List.any_eq_false.mp hany) v hv'
        exact this
      rw [z, Nat.le_zero, List.length_eq_zero_iff, List.filter_eq_nil_iff] at this
      exact this _ hv (by simp)

end Cache
end MM
