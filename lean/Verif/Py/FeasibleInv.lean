import Verif.Py.Feasible
import Mathlib.Tactic.Ring
import Mathlib.Tactic.Linarith

/-! Lemmas for the feasibility filter: counting edges of chains. -/

namespace MM

namespace Spec
namespace Py

open MM.Py

variable {α : Type}

/-- No edge is listed twice, in either direction. -/
def Simple (g : Graph α) : Prop := g.edges.Pairwise fun e f => e ≠ f ∧ e ≠ (f.2, f.1)

/-- No edge joins a node to itself. -/
def Loopless (g : Graph α) : Prop := ∀ e ∈ g.edges, e.1 ≠ e.2

end Py
end Spec

namespace Py

open Spec.Py Relation

variable {α β : Type} [DecidableEq α] [DecidableEq β]

/-! ### Sums over lists -/

omit [DecidableEq α] in
theorem sum_map_add (l : List α) (f g : α → Nat) : (l.map fun x => f x + g x).sum = (l.map f).sum + (l.map g).sum := by
  induction l with
  | nil => rfl
  | cons a l ih => simp only [List.map_cons, List.sum_cons, ih]; omega

omit [DecidableEq α] in
theorem sum_map_le {l : List α} {f g : α → Nat} (h : ∀ x ∈ l, f x ≤ g x) : (l.map f).sum ≤ (l.map g).sum := by
  induction l with
  | nil => simp
  | cons a l ih =>
    simp only [List.map_cons, List.sum_cons]
    have := h a (by simp)
    have := ih (fun x hx => h x (by simp [hx]))
    omega

theorem sum_map_subset {l m : List α} (hn : l.Nodup) (hs : ∀ x ∈ l, x ∈ m) (f : α → Nat) : (l.map f).sum ≤ (m.map f).sum := by
  obtain ⟨k, hk⟩ := List.subperm_of_subset hn hs
  obtain ⟨hp, hsub⟩ := hk
  have hsum : ∀ {k l : List α}, k.Perm l → (k.map f).sum = (l.map f).sum := by
    intro k l hkl
    induction hkl with
    | nil => rfl
    | cons a _ ih => simp only [List.map_cons, List.sum_cons, ih]
    | swap a b l => simp only [List.map_cons, List.sum_cons]; omega
    | trans _ _ h1 h2 => exact h1.trans h2
  rw [← hsum hp]
  clear hp hn hs
  induction hsub with
  | slnil => simp
  | cons a _ ih => simp only [List.map_cons, List.sum_cons]; omega
  | cons_cons a _ ih => simp only [List.map_cons, List.sum_cons]; omega

theorem length_le_of_subset {l m : List α} (hn : l.Nodup) (hs : ∀ x ∈ l, x ∈ m) : l.length ≤ m.length :=
  (List.subperm_of_subset hn hs).length_le

/-- Degrees added up over a set of nodes count the ends of edges in it. -/
theorem sum_degree (g : Graph β) : ∀ X : List β, X.Nodup →
    (X.map g.degree).sum = (g.edges.map fun e => (if e.1 ∈ X then 1 else 0) + (if e.2 ∈ X then 1 else 0)).sum := by
  intro X
  induction X with
  | nil =>
    intro _
    simp only [List.map_nil, List.sum_nil, List.not_mem_nil, if_false]
    induction g.edges with
    | nil => rfl
    | cons e es ih => simp [← ih]
  | cons q X ih =>
    intro hn
    obtain ⟨hq, hn⟩ := List.nodup_cons.mp hn
    rw [List.map_cons, List.sum_cons, ih hn]
    unfold Graph.degree
    rw [← sum_map_add]
    congr 1
    apply List.map_congr_left
    intro e _
    by_cases h1 : e.1 = q
    · have : e.1 ∉ X := by rw [h1]; exact hq
      by_cases h2 : e.2 = q
      · have : e.2 ∉ X := by rw [h2]; exact hq
        simp [*]
      · simp [*]
    · by_cases h2 : e.2 = q
      · have : e.2 ∉ X := by rw [h2]; exact hq
        simp [*]
        omega
      · simp [*]

/-- Edges with both ends in `X`. -/
def Graph.inner (g : Graph β) (X : List β) : List (β × β) := g.edges.filter fun e => e.1 ∈ X ∧ e.2 ∈ X

/-- Edges with one end in `X`. -/
def Graph.border (g : Graph β) (X : List β) : List (β × β) :=
  g.edges.filter fun e => (e.1 ∈ X ∧ e.2 ∉ X) ∨ (e.1 ∉ X ∧ e.2 ∈ X)

theorem sum_degree' (g : Graph β) {X : List β} (hX : X.Nodup) :
    (X.map g.degree).sum = 2 * (g.inner X).length + (g.border X).length := by
  rw [sum_degree g X hX]
  unfold Graph.inner Graph.border
  induction g.edges with
  | nil => rfl
  | cons e es ih =>
    rw [List.map_cons, List.sum_cons, ih]
    by_cases h1 : e.1 ∈ X <;> by_cases h2 : e.2 ∈ X <;> simp [h1, h2] <;> omega

theorem mem_sum_filter_le {l : List β} (p q : β → Prop) [DecidablePred p] [DecidablePred q] (hpq : ∀ x ∈ l, p x → q x)
    {x : β} (hx : x ∈ l) (hq : q x) (hp : ¬ p x) : (l.filter p).length + 1 ≤ (l.filter q).length := by
  induction l with
  | nil => simp at hx
  | cons a l ih =>
    have mono : (l.filter p).length ≤ (l.filter q).length := by
      clear ih hx
      induction l with
      | nil => simp
      | cons b l ih' =>
        have h1 := ih' (fun x hx => hpq x (by simp at hx ⊢; tauto))
        have h2 := hpq b (by simp)
        by_cases hb : p b
        · simp [hb, h2 hb]; exact h1
        · by_cases hb' : q b
          · simp [hb, hb']; omega
          · simp [hb, hb']; exact h1
    by_cases hxa : x = a
    · subst hxa
      simp [hp, hq]
      exact mono
    · have hx' : x ∈ l := by simpa [hxa] using hx
      have h1 := ih (fun x hx => hpq x (by simp [hx])) hx'
      have h2 := hpq a (by simp)
      by_cases hb : p a
      · simp [hb, h2 hb]; omega
      · by_cases hb' : q a
        · simp [hb, hb']; omega
        · simp [hb, hb']; omega

/-- A connected set has at least as many edges inside as nodes, but one. -/
theorem inner_ge {g : Graph β} {X : List β} (hX : X.Nodup) (hl : Linked g X) : X.length ≤ (g.inner X).length + 1 := by
  cases hX0 : X with
  | nil => simp
  | cons a X' =>
    rw [← hX0]
    have ha : a ∈ X := by rw [hX0]; simp
    have grow : ∀ k, k + 1 ≤ X.length → ∃ Y : List β, Y.Nodup ∧ (∀ q ∈ Y, q ∈ X) ∧ a ∈ Y ∧ Y.length = k + 1 ∧ k ≤ (g.inner Y).length := by
      intro k
      induction k with
      | zero => intro _; exact ⟨[a], by simp, by simpa using ha, by simp, rfl, by simp⟩
      | succ k ih =>
        intro hk
        obtain ⟨Y, h1, h2, h3, h4, h5⟩ := ih (by omega)
        -- an edge leads out of `Y`
        have hout : ∃ b ∈ X, b ∉ Y := by
          by_contra hc
          have : X.length ≤ Y.length := length_le_of_subset hX (fun b hb => by
            by_contra hb'
            exact hc ⟨b, hb, hb'⟩)
          omega
        obtain ⟨b, hb, hbY⟩ := hout
        have step : ∀ c, ReflTransGen (fun x y => y ∈ X ∧ g.Adj x y) a c → c ∉ Y → ∃ p q, p ∈ Y ∧ q ∈ X ∧ q ∉ Y ∧ g.Adj p q := by
          intro c hc
          induction hc with
          | refl => intro h; exact absurd h3 h
          | @tail p q _ hq ih' =>
            intro hqY
            by_cases hp : p ∈ Y
            · exact ⟨p, q, hp, hq.1, hqY, hq.2⟩
            · exact ih' hp
        obtain ⟨p, q, hp, hq, hqY, hadj⟩ := step b (hl a ha b hb) hbY
        refine ⟨q :: Y, List.nodup_cons.mpr ⟨hqY, h1⟩, ?_, by simp [h3], by simp [h4], ?_⟩
        · intro x hx
          rcases List.mem_cons.mp hx with rfl | hx
          · exact hq
          · exact h2 x hx
        · refine Nat.le_trans (Nat.succ_le_succ h5) ?_
          unfold Graph.inner
          rcases hadj with hadj | hadj
          · refine mem_sum_filter_le _ _ ?_ hadj ?_ ?_
            · intro e _ he; simp; tauto
            · simp [hp]
            · simp [hqY]
          · refine mem_sum_filter_le _ _ ?_ hadj ?_ ?_
            · intro e _ he; simp; tauto
            · simp [hp]
            · simp [hqY]
    obtain ⟨Y, h1, h2, -, h4, h5⟩ := grow (X.length - 1) (by
      have : 0 < X.length := List.length_pos_of_mem ha
      omega)
    have : 0 < X.length := List.length_pos_of_mem ha
    have hsub : ∀ q ∈ X, q ∈ Y := by
      have hp : Y.Perm X := (List.subperm_of_subset h1 h2).perm_of_length_le (by omega)
      intro q hq
      exact hp.mem_iff.mpr hq
    have hmono : (g.inner Y).length ≤ (g.inner X).length := by
      unfold Graph.inner
      exact (List.monotone_filter_right _ (fun e he => by
        simp only [decide_eq_true_eq] at he ⊢
        exact ⟨h2 _ he.1, h2 _ he.2⟩)).length_le
    omega

/-! ### A minor embedding -/

/-- An embedding by lists of distinct target nodes. -/
structure Packed (S : Graph α) (T : Graph β) (X : α → List β) : Prop where
  nodup : ∀ v ∈ S.nodes, (X v).Nodup
  ne : ∀ v ∈ S.nodes, X v ≠ []
  nodes : ∀ v ∈ S.nodes, ∀ q ∈ X v, q ∈ T.nodes
  linked : ∀ v ∈ S.nodes, Linked T (X v)
  disj : ∀ v ∈ S.nodes, ∀ w ∈ S.nodes, v ≠ w → ∀ q ∈ X v, q ∉ X w
  edges : ∀ v w, S.Adj v w → v ≠ w → ∃ p ∈ X v, ∃ q ∈ X w, T.Adj p q

theorem Packed.of {S : Graph α} {T : Graph β} {emb : α → Option (List β)} (hS : S.WF) (h : MinorEmbedding S T emb) :
    Packed S T (fun v => ((emb v).getD []).dedup) := by
  have get : ∀ v ∈ S.nodes, ∃ c, emb v = some c ∧ c ≠ [] ∧ ((emb v).getD []).dedup = c.dedup := by
    intro v hv
    obtain ⟨c, hc, hne⟩ := h.chain v hv
    exact ⟨c, hc, hne, by rw [hc]; rfl⟩
  refine ⟨fun v _ => List.nodup_dedup _, ?_, ?_, ?_, ?_, ?_⟩
  · intro v hv
    obtain ⟨c, hc, hne, he⟩ := get v hv
    rw [he]
    cases c with
    | nil => exact absurd rfl hne
    | cons a c => exact List.ne_nil_of_mem (List.mem_dedup.mpr List.mem_cons_self)
  · intro v hv q hq
    obtain ⟨c, hc, hne, he⟩ := get v hv
    rw [he, List.mem_dedup] at hq
    exact h.nodes v hv c hc q hq
  · intro v hv
    obtain ⟨c, hc, hne, he⟩ := get v hv
    rw [he]
    have := h.linked v hv c hc
    intro a ha b hb
    have hr := this a (List.mem_dedup.mp ha) b (List.mem_dedup.mp hb)
    clear hb
    induction hr with
    | refl => exact .refl
    | tail _ hxy ih => exact ih.tail ⟨List.mem_dedup.mpr hxy.1, hxy.2⟩
  · intro v hv w hw hne q hq
    obtain ⟨c, hc, -, he⟩ := get v hv
    obtain ⟨d, hd, -, he'⟩ := get w hw
    rw [he, List.mem_dedup] at hq
    rw [he', List.mem_dedup]
    exact h.disjoint v hv w hw hne c d hc hd q hq
  · intro v w hvw hne
    have hv : v ∈ S.nodes ∧ w ∈ S.nodes := by
      rcases hvw with h | h
      · exact hS.ends _ h
      · exact (hS.ends _ h).symm
    obtain ⟨c, hc, -, he⟩ := get v hv.1
    obtain ⟨d, hd, -, he'⟩ := get w hv.2
    obtain ⟨p, hp, q, hq, hpq⟩ := h.edges v w hvw hne c d hc hd
    rw [he, he']
    exact ⟨p, List.mem_dedup.mpr hp, q, List.mem_dedup.mpr hq, hpq⟩

omit [DecidableEq α] in
theorem length_le_of_rel {l : List α} {m : List β} (R : α → β → Prop) (hn : l.Nodup) (hex : ∀ e ∈ l, ∃ f ∈ m, R e f)
    (hinj : ∀ e ∈ l, ∀ e' ∈ l, ∀ f, R e f → R e' f → e = e') : l.length ≤ m.length := by
  induction l generalizing m with
  | nil => simp
  | cons a l ih =>
    obtain ⟨ha, hn⟩ := List.nodup_cons.mp hn
    obtain ⟨f, hf, hR⟩ := hex a (by simp)
    have := ih (m := m.erase f) hn (by
      intro e he
      obtain ⟨f', hf', hR'⟩ := hex e (by simp [he])
      refine ⟨f', ?_, hR'⟩
      rw [List.mem_erase_of_ne]
      · exact hf'
      · rintro rfl
        exact ha (hinj e (by simp [he]) a (by simp) f' hR' hR ▸ he)) (fun e he e' he' => hinj e (by simp [he]) e' (by simp [he']))
    rw [List.length_erase_of_mem hf] at this
    have := List.length_pos_of_mem hf
    simp only [List.length_cons]
    omega

/-- The target edge `f` stands for the source edge `e`. -/
def Stands (X : α → List β) (e : α × α) (f : β × β) : Prop :=
  (f.1 ∈ X e.1 ∧ f.2 ∈ X e.2) ∨ (f.1 ∈ X e.2 ∧ f.2 ∈ X e.1)

omit [DecidableEq α] in
theorem Simple.nodup {S : Graph α} (hs : Simple S) : S.edges.Nodup := hs.imp fun h => h.1

variable {S : Graph α} {T : Graph β} {X : α → List β}

omit [DecidableEq α] [DecidableEq β] in
theorem Packed.stands (h : Packed S T X) (hl : Loopless S) : ∀ e ∈ S.edges, ∃ f ∈ T.edges, Stands X e f := by
  intro e he
  obtain ⟨p, hp, q, hq, hpq⟩ := h.edges e.1 e.2 (.inl he) (hl e he)
  rcases hpq with hpq | hpq
  · exact ⟨(p, q), hpq, .inl ⟨hp, hq⟩⟩
  · exact ⟨(q, p), hpq, .inr ⟨hq, hp⟩⟩

omit [DecidableEq α] [DecidableEq β] in
theorem Packed.stands_inj (h : Packed S T X) (hS : S.WF) (hs : Simple S) :
    ∀ e ∈ S.edges, ∀ e' ∈ S.edges, ∀ f, Stands X e f → Stands X e' f → e = e' := by
  intro e he e' he' f hf hf'
  have same : ∀ v ∈ S.nodes, ∀ w ∈ S.nodes, ∀ q, q ∈ X v → q ∈ X w → v = w := by
    intro v hv w hw q h1 h2
    by_contra hc
    exact h.disj v hv w hw hc q h1 h2
  obtain ⟨a1, a2⟩ := hS.ends e he
  obtain ⟨b1, b2⟩ := hS.ends e' he'
  have key : e = e' ∨ e = (e'.2, e'.1) := by
    rcases hf with ⟨f1, f2⟩ | ⟨f1, f2⟩ <;> rcases hf' with ⟨g1, g2⟩ | ⟨g1, g2⟩
    · exact .inl (Prod.ext (same _ a1 _ b1 _ f1 g1) (same _ a2 _ b2 _ f2 g2))
    · exact .inr (Prod.ext (same _ a1 _ b2 _ f1 g1) (same _ a2 _ b1 _ f2 g2))
    · exact .inr (Prod.ext (same _ a1 _ b2 _ f2 g2) (same _ a2 _ b1 _ f1 g1))
    · exact .inl (Prod.ext (same _ a1 _ b1 _ f2 g2) (same _ a2 _ b2 _ f1 g1))
  rcases key with key | key
  · exact key
  · by_contra hne
    have hs' := List.pairwise_iff_getElem.mp hs
    obtain ⟨i, hi, hi'⟩ := List.getElem_of_mem he
    obtain ⟨j, hj, hj'⟩ := List.getElem_of_mem he'
    rcases Nat.lt_trichotomy i j with hij | hij | hij
    · have := (hs' i j hi hj hij).2
      rw [hi', hj'] at this
      exact this key
    · subst hij
      exact hne (hi'.symm.trans hj')
    · have := (hs' j i hj hi hij).2
      rw [hi', hj'] at this
      exact this (by rw [key])

theorem Packed.edges_le (h : Packed S T X) (hS : S.WF) (hs : Simple S) (hl : Loopless S) : S.edges.length ≤ T.edges.length :=
  length_le_of_rel (Stands X) (Simple.nodup hs) (h.stands hl) (h.stands_inj hS hs)

theorem degree_eq (hl : Loopless S) (v : α) : S.degree v = (S.edges.filter fun e => e.1 = v ∨ e.2 = v).length := by
  unfold Graph.degree
  have : ∀ es : List (α × α), (∀ e ∈ es, e.1 ≠ e.2) →
      (es.map fun e => (if e.1 = v then 1 else 0) + (if e.2 = v then 1 else 0)).sum = (es.filter fun e => e.1 = v ∨ e.2 = v).length := by
    intro es
    induction es with
    | nil => intro _; rfl
    | cons e es ih =>
      intro hh
      have h1 := hh e (by simp)
      rw [List.map_cons, List.sum_cons, ih (fun e he => hh e (by simp [he]))]
      by_cases h2 : e.1 = v
      · have h3 : ¬ e.2 = v := fun h3 => h1 (h2.trans h3.symm)
        simp [h2, h3]
        omega
      · by_cases h3 : e.2 = v
        · simp [h2, h3]
          omega
        · simp [h2, h3]
  exact this _ hl

/-- The degree of a source node is at most what its chain has to offer. -/
theorem Packed.degree_le (h : Packed S T X) (hS : S.WF) (hs : Simple S) (hl : Loopless S) {v : α} (hv : v ∈ S.nodes) :
    S.degree v + 2 * (X v).length ≤ ((X v).map T.degree).sum + 2 := by
  have h1 : S.degree v ≤ (T.border (X v)).length := by
    rw [degree_eq hl]
    refine length_le_of_rel (Stands X) ((Simple.nodup hs).filter _) ?_ ?_
    · intro e he
      simp only [List.mem_filter, decide_eq_true_eq] at he
      obtain ⟨he, hev⟩ := he
      obtain ⟨f, hf, hst⟩ := h.stands hl e he
      refine ⟨f, ?_, hst⟩
      unfold Graph.border
      simp only [List.mem_filter, decide_eq_true_eq]
      refine ⟨hf, ?_⟩
      obtain ⟨a1, a2⟩ := hS.ends e he
      have hne := hl e he
      have d1 := h.disj _ a1 _ a2 hne
      have d2 := h.disj _ a2 _ a1 hne.symm
      rcases hev with rfl | rfl
      · rcases hst with ⟨f1, f2⟩ | ⟨f1, f2⟩
        · exact .inl ⟨f1, d2 _ f2⟩
        · exact .inr ⟨d2 _ f1, f2⟩
      · rcases hst with ⟨f1, f2⟩ | ⟨f1, f2⟩
        · exact .inr ⟨d1 _ f1, f2⟩
        · exact .inl ⟨f1, d1 _ f2⟩
    · intro e he e' he' f
      exact h.stands_inj hS hs e (List.mem_filter.mp he).1 e' (List.mem_filter.mp he').1 f
  have h2 := inner_ge (h.nodup v hv) (h.linked v hv)
  have h3 := sum_degree' T (h.nodup v hv)
  omega

/-- Source nodes are at most as many as target nodes, also among those of some degree, if each chain has such a node. -/
theorem Packed.count_le (h : Packed S T X) (hS : S.WF) (p : α → Prop) (q : β → Prop) [DecidablePred p] [DecidablePred q]
    (hpq : ∀ v ∈ S.nodes, p v → ∃ x ∈ X v, q x) : (S.nodes.filter p).length ≤ (T.nodes.filter q).length := by
  refine length_le_of_rel (fun v x => x ∈ X v) (hS.nodup.filter _) ?_ ?_
  · intro v hv
    simp only [List.mem_filter, decide_eq_true_eq] at hv
    obtain ⟨x, hx, hq⟩ := hpq v hv.1 hv.2
    exact ⟨x, by simpa using ⟨h.nodes v hv.1 x hx, hq⟩, hx⟩
  · intro v hv w hw x h1 h2
    by_contra hne
    exact h.disj v (List.mem_filter.mp hv).1 w (List.mem_filter.mp hw).1 hne x h1 h2

/-- Weights of target nodes: if each chain weighs as much as its source node, so does the target. -/
theorem Packed.weight_le (h : Packed S T X) (hS : S.WF) (f : α → Nat) (g : β → Nat)
    (hfg : ∀ v ∈ S.nodes, f v ≤ ((X v).map g).sum) : (S.nodes.map f).sum ≤ (T.nodes.map g).sum := by
  have h1 : (S.nodes.map f).sum ≤ ((S.nodes.flatMap X).map g).sum := by
    have : ∀ l : List α, (∀ v ∈ l, f v ≤ ((X v).map g).sum) → (l.map f).sum ≤ ((l.flatMap X).map g).sum := by
      intro l
      induction l with
      | nil => simp
      | cons a l ih =>
        intro hh
        have e1 := hh a (by simp)
        have e2 := ih (fun v hv => hh v (by simp [hv]))
        rw [List.flatMap_cons, List.map_append, List.sum_append, List.map_cons, List.sum_cons]
        omega
    exact this _ hfg
  refine h1.trans (sum_map_subset ?_ ?_ g)
  · rw [List.nodup_flatMap]
    refine ⟨h.nodup, ?_⟩
    refine hS.nodup.pairwise_of_forall_ne ?_
    intro v hv w hw hne
    intro q hq hq'
    exact h.disj v hv w hw hne q hq hq'
  · intro q hq
    obtain ⟨v, hv, hq⟩ := List.mem_flatMap.mp hq
    exact h.nodes v hv q hq

end Py
end MM
