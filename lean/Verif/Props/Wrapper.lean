import Verif.Cache.Wrapper
import Verif.Props.CliqueCache
import Verif.Props.Bicliques
import Mathlib.Data.List.Perm.Subperm

/-! C111: `find_clique_embedding` and `find_biclique_embedding` for Chimera, Pegasus and Zephyr graphs. -/

namespace MM
open Spec Cache

namespace Cache

variable {κ β : Type} [DecidableEq κ]

theorem foldl_dset (items : List (κ × β)) : ∀ d : Dict κ β, (d.map Prod.fst).Nodup →
    ((items.foldl (fun d p => dset d p.1 p.2) d).map Prod.fst).Nodup ∧
    (∀ k, k ∈ (items.foldl (fun d p => dset d p.1 p.2) d).map Prod.fst ↔ k ∈ d.map Prod.fst ∨ k ∈ items.map Prod.fst) ∧
    ((d.map Prod.fst ++ items.map Prod.fst).Nodup → items.foldl (fun d p => dset d p.1 p.2) d = d ++ items) := by
  induction items with
  | nil => intro d h; simp [h]
  | cons p items ih =>
    intro d h
    obtain ⟨a1, a2, a3⟩ := ih (dset d p.1 p.2) (nodup_dset h _ _)
    refine ⟨a1, fun k => ?_, fun hn => ?_⟩
    · rw [List.foldl_cons, a2, mem_keys_dset, List.map_cons, List.mem_cons]
      tauto
    · have hp : p.1 ∉ d.map Prod.fst := fun hm => (List.nodup_append.mp hn).2.2 _ hm _ (by simp) rfl
      rw [List.foldl_cons, a3, dset_new _ hp, List.append_assoc]
      · rfl
      · rw [dset_new _ hp]
        simpa using hn

theorem toDict_keys (items : List (κ × β)) : ((toDict items).map Prod.fst).Nodup ∧ ∀ k, k ∈ (toDict items).map Prod.fst ↔ k ∈ items.map Prod.fst := by
  obtain ⟨a1, a2, _⟩ := foldl_dset items [] .nil
  exact ⟨a1, fun k => by rw [toDict, a2]; simp⟩

theorem toDict_self {items : List (κ × β)} (h : (items.map Prod.fst).Nodup) : toDict items = items := by
  obtain ⟨_, _, a3⟩ := foldl_dset items [] .nil
  exact a3 (by simpa using h)

theorem toDict_length {items : List (κ × β)} : (toDict items).length = items.length ↔ (items.map Prod.fst).Nodup := by
  constructor
  · intro h
    obtain ⟨a1, a2⟩ := toDict_keys items
    have hs := List.subperm_of_subset a1 (fun k hk => (a2 k).mp hk)
    exact ((hs.perm_of_length_le (by simp [h])).nodup_iff).mp a1
  · intro h; rw [toDict_self h]

/-- The dictionary that the last lines make of the chains of one shore. -/
theorem pickChains {α : Type} [DecidableEq α] {embedding : Dict Nat (List Nat)} {nodes : List α} {offset : Nat} {A : Emb} (hl : A.length = nodes.length)
    (hA : ∀ (i : Nat) (h : i < A.length), dget embedding (i + offset) = some A[i]) : ∀ (l : List α) (d : Dict α (List Nat)), l ⊆ nodes → (d.map Prod.fst).Nodup →
    (∀ p ∈ d, ∃ i : Nat, nodes.idxOf? p.1 = some i ∧ A[i]? = some p.2) →
    ∃ d', l.foldlM (pickChain embedding nodes offset) d = .ok d' ∧ (d'.map Prod.fst).Nodup ∧ (∀ x, x ∈ d'.map Prod.fst ↔ x ∈ d.map Prod.fst ∨ x ∈ l) ∧
      (∀ p ∈ d', ∃ i : Nat, nodes.idxOf? p.1 = some i ∧ A[i]? = some p.2) ∧ ((d.map Prod.fst ++ l).Nodup → d'.map Prod.fst = d.map Prod.fst ++ l) := by
  intro l
  induction l with
  | nil => intro d _ hn hd; exact ⟨d, rfl, hn, by simp, hd, by simp⟩
  | cons x l ih =>
    intro d hs hn hd
    have hx := hs List.mem_cons_self
    obtain ⟨i, hi⟩ : ∃ i, nodes.idxOf? x = some i := by
      cases e : nodes.idxOf? x with
      | none => rw [List.idxOf?_eq_none_iff] at e; exact absurd hx e
      | some i => exact ⟨i, rfl⟩
    have hil : i < A.length := by
      have := List.of_findIdx?_eq_some hi
      cases e : nodes[i]? with
      | none => rw [e] at this; simp at this
      | some y => have := (List.getElem?_eq_some_iff.mp e).1; omega
    have hset : ∀ p ∈ dset d x A[i], ∃ i : Nat, nodes.idxOf? p.1 = some i ∧ A[i]? = some p.2 := by
      intro p hp
      have h1 := dget_of_mem (nodup_dset hn x A[i]) hp
      rw [dget_dset] at h1
      split at h1
      · rename_i e
        exact ⟨i, by rw [← e]; exact hi, by rw [List.getElem?_eq_getElem hil]; exact h1⟩
      · exact hd p (mem_of_dget h1)
    obtain ⟨d', b1, b2, b3, b4, b5⟩ := ih (dset d x A[i]) (fun y hy => hs (List.mem_cons_of_mem _ hy)) (nodup_dset hn _ _) hset
    refine ⟨d', ?_, b2, fun y => ?_, b4, fun hnn => ?_⟩
    · simp only [List.foldlM_cons, pickChain, hi, hA i hil, bind, Except.bind]
      exact b1
    · rw [b3, mem_keys_dset, List.mem_cons]; tauto
    · have hxn : x ∉ d.map Prod.fst := fun hm => (List.nodup_append.mp hnn).2.2 _ hm _ (by simp) rfl
      rw [b5 (by rw [dset_new _ hxn]; simpa using hnn), dset_new _ hxn]
      simp

/-- Its chains are some of those given, each at most once. -/
theorem picked_subperm {α : Type} [DecidableEq α] {nodes : List α} {A : Emb} {d : Dict α (List Nat)} (hn : (d.map Prod.fst).Nodup)
    (hd : ∀ p ∈ d, ∃ i : Nat, nodes.idxOf? p.1 = some i ∧ A[i]? = some p.2) : (d.map Prod.snd).Subperm A := by
  have h1 : d.map Prod.snd = (d.map fun p => nodes.idxOf p.1).filterMap (A[·]?) := by
    induction d with
    | nil => rfl
    | cons p d ih =>
      obtain ⟨i, hi, hv⟩ := hd p List.mem_cons_self
      have : nodes.idxOf p.1 = i := by
        rw [List.idxOf_eq_getD_idxOf?, hi]; rfl
      rw [List.map_cons, List.map_cons, List.filterMap_cons, this, hv, ih (List.nodup_cons.mp hn).2 (fun q hq => hd q (List.mem_cons_of_mem _ hq))]
  have h2 : ((d.map fun p => nodes.idxOf p.1)).Nodup := by
    rw [show (d.map fun p => nodes.idxOf p.1) = (d.map Prod.fst).map nodes.idxOf by rw [List.map_map]; rfl]
    refine hn.map_on fun x hx y hy e => ?_
    obtain ⟨p, hp, rfl⟩ := List.mem_map.mp hx
    obtain ⟨i, hi, _⟩ := hd p hp
    have : p.1 ∈ nodes := by
      by_contra hc
      rw [List.idxOf?_eq_none_iff.mpr hc] at hi; cases hi
    exact (List.idxOf_inj this).mp e
  have h3 : (d.map fun p => nodes.idxOf p.1) ⊆ List.range A.length := by
    intro i hi
    obtain ⟨p, hp, rfl⟩ := List.mem_map.mp hi
    obtain ⟨j, hj, hv⟩ := hd p hp
    have : nodes.idxOf p.1 = j := by rw [List.idxOf_eq_getD_idxOf?, hj]; rfl
    rw [this, List.mem_range]
    exact (List.getElem?_eq_some_iff.mp hv).1
  have h4 : A = (List.range A.length).filterMap (A[·]?) := by
    have : ∀ l : Emb, ∀ A : Emb, (List.range' A.length l.length).filterMap ((A ++ l)[·]?) = l := by
      intro l
      induction l with
      | nil => intro A; rfl
      | cons c l ih =>
        intro A
        have h := ih (A ++ [c])
        rw [List.length_append, List.length_singleton, List.append_assoc, List.singleton_append] at h
        rw [List.length_cons, List.range'_succ, List.filterMap_cons, List.getElem?_append_right (Nat.le_refl _), Nat.sub_self, List.getElem?_cons_zero, h]
    have := this A []
    rw [List.length_nil, List.nil_append, ← List.range_eq_range'] at this
    exact this.symm
  rw [h1]
  conv_rhs => rw [h4]
  obtain ⟨l, hl1, hl2⟩ := List.subperm_of_subset h2 h3
  exact ⟨_, hl1.filterMap _, hl2.filterMap _⟩

end Cache

variable {α : Type} [DecidableEq α]

/-- The labels that an argument stands for: numbers starting with `start`, or the nodes given. -/
inductive Labelled (int : Nat → α) (start : Nat) : Shore α → List α → Prop
  | number (n : Nat) : Labelled int start (.number n) ((List.range n).map fun x => int (start + x))
  | nodes (l : List α) : Labelled int start (.nodes l) l

theorem Labelled.nodesOrNumber {int : Nat → α} {k : Shore α} {l : List α} (h : Labelled int 0 k l) : nodesOrNumber int k = .ok l := by
  cases h with
  | number n => simp [Cache.nodesOrNumber]
  | nodes l => rfl

/-- C111, cliques: for distinct labels the function returns a valid embedding of the clique with exactly these labels, in their order, if the cache holds an embedding with as many chains; otherwise, and for labels that are not
distinct, it raises `ValueError`. -/
theorem C111_clique {nodes : List Nat} {edges : List (Nat × Nat)} {r : List Emb} (hr : ∀ e ∈ r, CliqueEmbedding nodes edges e) {g : Board} (hg : g.cliques = .ok (make r)) {int : Nat → α} {k : Shore α} {l : List α} (hk : Labelled int 0 k l) :
    (l.Nodup ∧ (∃ e ∈ r, l.length ≤ e.length) → ∃ d, cliqueEmbedding int (.ok g) k = .ok d ∧ d.map Prod.fst = l ∧ CliqueEmbedding nodes edges (d.map Prod.snd)) ∧
    (¬ (l.Nodup ∧ ∃ e ∈ r, l.length ≤ e.length) → l ≠ [] → cliqueEmbedding int (.ok g) k = .error .value) := by
  have hrun : cliqueEmbedding int (.ok g) k = (ofCache (Cache.find (make r) l)).bind fun items => if (toDict items).length ≠ l.length then .error .value else .ok (toDict items) := by
    simp only [cliqueEmbedding, hk.nodesOrNumber, hg, ofCache, bind, Except.bind]
    cases Cache.find (make r) l <;> rfl
  rw [hrun]
  rcases C35_find r l with ⟨i, e, e1, e2, _, e4⟩ | ⟨e1, e2⟩
  · have hz : (l.zip e).map Prod.fst = l := List.map_fst_zip e2
    have hzl : (l.zip e).length = l.length := by rw [List.length_zip]; omega
    have hm := List.mem_of_getElem? e1
    rw [e4]
    simp only [ofCache, Except.bind]
    have hlen := toDict_length (items := l.zip e)
    rw [hz, hzl] at hlen
    constructor
    · rintro ⟨hn, _⟩
      rw [if_neg (fun h => h (hlen.mpr hn)), toDict_self (by rw [hz]; exact hn)]
      refine ⟨_, rfl, hz, ?_⟩
      rw [snd_zip]
      have hsub : (e.take l.length).Sublist e := List.take_sublist _ _
      exact ⟨fun c hc => (hr e hm).chains c (hsub.subset hc), (hr e hm).disjoint.sublist hsub, (hr e hm).adjacent.sublist hsub⟩
    · intro hn _
      rw [if_pos]
      exact fun h => hn ⟨hlen.mp h, e, hm, e2⟩
  · rw [e2]
    simp only [ofCache, Except.bind]
    constructor
    · rintro ⟨_, e, he, hle⟩
      exact absurd (e1 e he) (by omega)
    · intro _ hne
      rw [if_pos]
      intro h
      exact hne (List.length_eq_zero_iff.mp h.symm)

/-- C111, bicliques: unless the labels overlap, the function returns for each shore a dictionary with its labels, in their order if they are distinct, and the chains form a valid embedding of the biclique, if the cache holds a biclique
both of whose sides are at least as large as the larger shore. In all other cases it raises `ValueError`. The labels of the second shore start with the size of the first if both are given as numbers. -/
theorem C111_biclique_partial {nodes : List Nat} {edges : List (Nat × Nat)} {embs : List ((Nat × Nat) × List (List Nat))} (hb : BicliqueItems nodes edges embs) (hne : embs ≠ []) {g : Board} (hg : g.bicliques = makeBicliques embs)
    {int : Nat → α} {a b : Shore α} {l r : List α} (ha : Labelled int 0 a l) (hr : Labelled int (if a.isNumber && b.isNumber then l.length else 0) b r) :
    ((∀ x ∈ l, x ∉ r) ∧ (l ≠ [] ∨ r ≠ []) ∧ (∃ p ∈ embs, max l.length r.length ≤ min p.1.1 p.1.2) →
      ∃ L R, bicliqueEmbedding int (.ok g) a b = .ok (L, R) ∧ (L.map Prod.fst).Nodup ∧ (R.map Prod.fst).Nodup ∧ (∀ x, x ∈ L.map Prod.fst ↔ x ∈ l) ∧ (∀ x, x ∈ R.map Prod.fst ↔ x ∈ r) ∧
        (l.Nodup → L.map Prod.fst = l) ∧ (r.Nodup → R.map Prod.fst = r) ∧ BicliqueEmbedding nodes edges (L.map Prod.snd) (R.map Prod.snd)) ∧
    (¬ ((∀ x ∈ l, x ∉ r) ∧ (l ≠ [] ∨ r ≠ []) ∧ ∃ p ∈ embs, max l.length r.length ≤ min p.1.1 p.1.2) → bicliqueEmbedding int (.ok g) a b = .error .value) := by
  obtain ⟨c, hc, h1, h2⟩ := C38_partial hb hne (List.range l.length) (List.range' l.length r.length)
  simp only [List.length_range, List.length_range'] at h1 h2
  have hempty : ∀ {β : Type} (x : List β), x = [] ↔ x.length = 0 := fun x => List.length_eq_zero_iff.symm
  have hrun : bicliqueEmbedding int (.ok g) a b = if l.any (· ∈ r) then .error .value else
      (ofCache (findBiclique c (List.range l.length) (List.range' l.length r.length))).bind fun items =>
        if toDict items = [] then .error .value else (l.foldlM (pickChain (toDict items) l 0) []).bind fun L => (r.foldlM (pickChain (toDict items) r l.length) []).bind fun R => .ok (L, R) := by
    obtain ⟨r', e1, e2⟩ : ∃ r', nodesOrNumber int b = .ok r' ∧ secondShore int a b l r' = r := by
      cases hr with
      | number n =>
        refine ⟨(List.range n).map int, by simp [nodesOrNumber], ?_⟩
        simp only [secondShore, List.length_map, List.length_range]
        split
        · rfl
        · simp
      | nodes r =>
        refine ⟨r, rfl, ?_⟩
        simp [secondShore, Shore.isNumber]
    simp only [bicliqueEmbedding, ha.nodesOrNumber, e1, bind, Except.bind]
    rw [e2]
    by_cases h : l.any (· ∈ r) = true
    · rw [if_pos h, if_pos h]
    · rw [if_neg h, if_neg h, hg, hc]
      rfl
  rw [hrun]
  have hov : l.any (· ∈ r) = true ↔ ¬ ∀ x ∈ l, x ∉ r := by simp
  constructor
  · rintro ⟨g1, g2, g3⟩
    obtain ⟨A, B, items, f1, f2, f3, f4, f5, _⟩ := h1 (by
      rcases g2 with h | h
      · exact .inl fun e => h ((hempty _).mpr (by have := congrArg List.length e; simpa using this))
      · exact .inr fun e => h ((hempty _).mpr (by have := congrArg List.length e; simpa using this))) g3
    have hkeys : ((List.range l.length).zip A ++ (List.range' l.length r.length).zip B).map Prod.fst = List.range (l.length + r.length) := by
      rw [List.map_append, List.map_fst_zip (by simp [f3]), List.map_fst_zip (by simp [f4]), List.range_eq_range', List.range_eq_range']
      have := List.range'_append (s := 0) (m := l.length) (n := r.length) (step := 1)
      simpa using this
    have hn : (items.map Prod.fst).Nodup := by
      rw [(f2.map Prod.fst).nodup_iff, hkeys]; exact List.nodup_range
    have hget : ∀ k v, (k, v) ∈ (List.range l.length).zip A ++ (List.range' l.length r.length).zip B → dget items k = some v := fun k v h => dget_of_mem hn (f2.mem_iff.mpr h)
    rw [if_neg (by rw [hov]; exact fun h => h g1), f1]
    simp only [ofCache, Except.bind, toDict_self hn]
    rw [if_neg (by
      intro e
      have := f2.length_eq
      rw [e] at this
      simp only [List.length_nil, List.length_append, List.length_zip, List.length_range, List.length_range', f3, f4] at this
      rcases g2 with h | h
      · exact h ((hempty _).mpr (by omega))
      · exact h ((hempty _).mpr (by omega)))]
    obtain ⟨L, p1, p2, p3, p4, p5⟩ := pickChains (embedding := items) (nodes := l) (offset := 0) (A := A) f3 (fun i h => hget _ _ (List.mem_append_left _ (by
      rw [List.mem_iff_getElem?]
      refine ⟨i, ?_⟩
      rw [List.getElem?_zip_eq_some]
      exact ⟨by rw [List.getElem?_range (by omega)]; rfl, List.getElem?_eq_getElem h⟩))) l [] (fun _ h => h) .nil (by simp)
    obtain ⟨R, q1, q2, q3, q4, q5⟩ := pickChains (embedding := items) (nodes := r) (offset := l.length) (A := B) f4 (fun i h => hget _ _ (List.mem_append_right _ (by
      rw [List.mem_iff_getElem?]
      refine ⟨i, ?_⟩
      rw [List.getElem?_zip_eq_some]
      exact ⟨by rw [List.getElem?_range' (by omega)]; congr 1; omega, List.getElem?_eq_getElem h⟩))) r [] (fun _ h => h) .nil (by simp)
    rw [p1]
    dsimp only
    rw [q1]
    refine ⟨L, R, rfl, p2, q2, fun x => by rw [p3]; simp, fun x => by rw [q3]; simp, fun h => by simpa using p5 (by simpa using h), fun h => by simpa using q5 (by simpa using h), ?_⟩
    obtain ⟨A', a1, a2⟩ := picked_subperm p2 p4
    obtain ⟨B', b1, b2⟩ := picked_subperm q2 q4
    exact BicliqueEmbedding.perm (BicliqueEmbedding.sub f5 a2 b2) a1.symm b1.symm
  · intro hno
    by_cases g1 : ∀ x ∈ l, x ∉ r
    · rw [if_neg (by rw [hov]; exact fun h => h g1), h2 (by
        by_cases g2 : l ≠ [] ∨ r ≠ []
        · exact .inr fun g3 => hno ⟨g1, g2, g3⟩
        · rw [not_or, not_not, not_not] at g2
          left
          rw [g2.1, g2.2]
          exact ⟨rfl, rfl⟩)]
      rfl
    · rw [if_pos (hov.mpr g1)]

/-- Negative numbers are refused, by the decorator, and errors of the parameters for the lattice are passed on. -/
theorem C111_refused {int : Nat → α} {target : Except WErr Board} {n : Int} (hn : n < 0) (b : Shore α) :
    cliqueEmbedding int target (.number n) = .error .networkx ∧ bicliqueEmbedding int target (.number n) b = .error .networkx := by
  constructor
  · simp only [cliqueEmbedding, nodesOrNumber, if_pos hn, bind, Except.bind]
  · simp only [bicliqueEmbedding, nodesOrNumber, if_pos hn, bind, Except.bind]

/-- C111, the target of the Pegasus and Zephyr functions: the graph given, else the lattice of size `m`; `TypeError` if there is neither. -/
theorem C111_square {G : Type} (generate : Int → G) (m : Option Int) (given : Option G) :
    (∀ g, given = some g → squareTarget generate m given = .ok g) ∧ (∀ i, given = none → m = some i → squareTarget generate m given = .ok (generate i)) ∧
    (given = none → m = none → squareTarget generate m given = .error .type) := by
  refine ⟨fun g h => ?_, fun i h h' => ?_, fun h h' => ?_⟩ <;> subst h <;> first | rfl | (subst h'; rfl)

/-- C111, the target of the Chimera functions: the graph given, then `m`, `n` and `t` are ignored and edges must not be given; else the lattice with `m` rows, `n` columns, as many as rows if left out, and tiles of `t`, 4 if left out,
with the edges given. -/
theorem C111_chimera {G E : Type} (generate : Nat → Nat → Nat → Option E → G) (m n t : Param) (edges : Option E) (g : G) :
    chimeraTarget generate m n t none (some g) = .ok g ∧ (edges ≠ none → chimeraTarget generate m n t edges (some g) = .error .value) ∧
    (chimeraTarget generate m n t edges none = .ok g ↔ ∃ i j k : Nat, 0 < i ∧ 0 < j ∧ 0 < k ∧ m = .int i ∧ (n = .int j ∨ n = .none ∧ j = i) ∧ (t = .int k ∨ t = .none ∧ k = 4) ∧ generate i j k edges = g) := by
  refine ⟨rfl, fun h => ?_, ?_⟩
  · cases edges with
    | none => exact absurd rfl h
    | some e => rfl
  · have hpos : ∀ (p : Param) (x : Nat), p.positive = .ok x ↔ 0 < x ∧ p = .int x := by
      intro p x
      cases p with
      | none => simp [Param.positive]
      | other => simp [Param.positive]
      | int i =>
        simp only [Param.positive, Param.int.injEq]
        split
        · rename_i hi
          constructor
          · intro h; cases h
          · rintro ⟨a, b⟩; omega
        · rename_i hi
          rw [Except.ok.injEq]
          constructor
          · intro h; omega
          · rintro ⟨a, b⟩; omega
    have hor : ∀ (p : Param) (x d : Nat), 0 < d → (p.orElse d = .ok x ↔ 0 < x ∧ (p = .int x ∨ p = .none ∧ x = d)) := by
      intro p x d hd
      cases p with
      | none =>
        simp only [Param.orElse, Except.ok.injEq]
        constructor
        · rintro rfl; exact ⟨hd, .inr ⟨trivial, rfl⟩⟩
        · rintro ⟨_, h | ⟨_, rfl⟩⟩
          · cases h
          · rfl
      | other => simp [Param.orElse, Param.positive]
      | int i =>
        simp only [Param.orElse]
        rw [hpos]
        simp
    simp only [chimeraTarget, bind, Except.bind]
    constructor
    · intro h
      cases hm : m.positive with
      | error e => rw [hm] at h; cases h
      | ok i =>
        obtain ⟨i1, i2⟩ := (hpos m i).mp hm
        rw [hm] at h
        dsimp only at h
        cases hn : n.orElse i with
        | error e => rw [hn] at h; cases h
        | ok j =>
          obtain ⟨j1, j2⟩ := (hor n j i i1).mp hn
          rw [hn] at h
          dsimp only at h
          cases ht : t.orElse 4 with
          | error e => rw [ht] at h; cases h
          | ok k =>
            obtain ⟨k1, k2⟩ := (hor t k 4 (by omega)).mp ht
            rw [ht] at h
            cases h
            exact ⟨i, j, k, i1, j1, k1, i2, j2, k2, rfl⟩
    · rintro ⟨i, j, k, i1, j1, k1, i2, j2, k2, rfl⟩
      rw [(hpos m i).mpr ⟨i1, i2⟩]
      dsimp only
      rw [(hor n j i i1).mpr ⟨j1, j2⟩]
      dsimp only
      rw [(hor t k 4 (by omega)).mpr ⟨k1, k2⟩]
      rfl

/-- C111, a fault: two numbers label the second shore with `a, …, a + b - 1`, not with `0, …, b - 1` as documented for Chimera and Pegasus; the documented labels would overlap. -/
theorem C111_second_labels {nodes : List Nat} {edges : List (Nat × Nat)} {embs : List ((Nat × Nat) × List (List Nat))} (hb : BicliqueItems nodes edges embs) (hne : embs ≠ []) {g : Board} (hg : g.bicliques = makeBicliques embs)
    {int : Nat → α} (hint : Function.Injective int) (a b : Nat) (h0 : 0 < a + b) (h : ∃ p ∈ embs, max a b ≤ min p.1.1 p.1.2) :
    ∃ L R, bicliqueEmbedding int (.ok g) (.number a) (.number b) = .ok (L, R) ∧ L.map Prod.fst = (List.range a).map int ∧ R.map Prod.fst = (List.range b).map fun x => int (a + x) := by
  have hr : Labelled int (if (Shore.number (a : Int) : Shore α).isNumber && (Shore.number (b : Int) : Shore α).isNumber then ((List.range a).map fun x => int (0 + x)).length else 0) (.number b)
      ((List.range b).map fun x => int (a + x)) := by
    have := Labelled.number (int := int) (start := a) b
    simpa [Shore.isNumber] using this
  have d1 : ∀ x ∈ (List.range a).map fun x => int (0 + x), x ∉ (List.range b).map fun x => int (a + x) := by
    intro x hx hx'
    simp only [List.mem_map, List.mem_range] at hx hx'
    obtain ⟨y, hy, rfl⟩ := hx
    obtain ⟨z, hz, e⟩ := hx'
    have := hint e
    omega
  have d2 : (List.range a).map (fun x => int (0 + x)) ≠ [] ∨ (List.range b).map (fun x => int (a + x)) ≠ [] := by
    rcases Nat.eq_zero_or_pos a with e | e
    · right
      intro e'
      have := congrArg List.length e'
      rw [List.length_map, List.length_range, List.length_nil] at this
      omega
    · left
      intro e'
      have := congrArg List.length e'
      rw [List.length_map, List.length_range, List.length_nil] at this
      omega
  obtain ⟨L, R, h1, _, _, _, _, h6, h7, _⟩ := (C111_biclique_partial hb hne hg (Labelled.number a) hr).1 ⟨d1, d2, by simpa using h⟩
  refine ⟨L, R, h1, ?_, h7 (List.nodup_range.map fun x y e => by have := hint e; omega)⟩
  have := h6 (List.nodup_range.map fun x y e => by have := hint e; omega)
  simpa using this

/-- … and a second shore given as a number with a first shore of nodes that contains 0 is refused. -/
theorem C111_mixed_overlap {int : Nat → α} (target : Except WErr Board) (l : List α) (hl : int 0 ∈ l) (b : Nat) (hb : 0 < b) : bicliqueEmbedding int target (.nodes l) (.number b) = .error .value := by
  have h1 : nodesOrNumber int (.number (b : Int)) = .ok ((List.range b).map int) := by simp [nodesOrNumber]
  have h2 : nodesOrNumber int (.nodes l) = .ok l := rfl
  simp only [bicliqueEmbedding, h1, h2, bind, Except.bind, secondShore, Shore.isNumber, Bool.false_and, Bool.false_eq_true, if_false]
  rw [if_pos]
  simp only [List.any_eq_true, decide_eq_true_eq]
  exact ⟨int 0, hl, List.mem_map_of_mem (List.mem_range.mpr hb)⟩

namespace Demo

/-- What the cache holds for two Chimera cells in a row without faults. -/
def pairBoard : Board := ⟨.ok (make [[], [[0], [2]]]), makeBicliques pairFound⟩

end Demo

/-- C111, faults: on two cells in a row a biclique with shores of 4 and 2 is in the cache, but asking for it raises `ValueError`; and so does asking for shores without nodes. -/
theorem C111_refuses : BicliqueItems (List.range 8) pairEdges pairFound ∧ BicliqueEmbedding (List.range 8) pairEdges [[0], [1], [4], [5]] [[2, 6], [3, 7]] ∧
    bicliqueEmbedding (α := Nat) id (.ok Demo.pairBoard) (.number 4) (.number 2) = .error .value ∧ bicliqueEmbedding (α := Nat) id (.ok Demo.pairBoard) (.number 0) (.number 0) = .error .value :=
  ⟨pair_items, C38_lopsided.2.1, by decide +kernel, by decide +kernel⟩

example : ∃ L R, bicliqueEmbedding (α := String) toString (.ok Demo.pairBoard) (.nodes ["x", "y"]) (.nodes ["z"]) = .ok (L, R) ∧ L = [("x", [0]), ("y", [1])] ∧ R = [("z", [2])] :=
  ⟨_, _, rfl, by decide +kernel, by decide +kernel⟩

example : ∃ L R, bicliqueEmbedding (α := Nat) id (.ok Demo.pairBoard) (.number 2) (.number 1) = .ok (L, R) ∧ L.map Prod.fst = (List.range 2).map id ∧ R.map Prod.fst = (List.range 1).map fun x => id (2 + x) :=
  C111_second_labels pair_items (by decide) rfl (fun _ _ h => h) 2 1 (by decide) ⟨_, List.mem_cons_self, by decide⟩

example : cliqueEmbedding (α := String) toString (.ok Demo.pairBoard) (.nodes ["x", "y"]) = .ok [("x", [0]), ("y", [2])] ∧ cliqueEmbedding (α := String) toString (.ok Demo.pairBoard) (.nodes ["x", "x"]) = .error .value ∧
    ∀ e ∈ [[], [[0], [2]]], CliqueEmbedding (List.range 8) pairEdges e := by
  refine ⟨by decide +kernel, by decide +kernel, fun e he => ?_⟩
  rcases List.mem_cons.mp he with rfl | he
  · exact ⟨by simp, .nil, .nil⟩
  · rw [List.mem_singleton.mp he]
    refine ⟨fun c hc => isChain_path ?_ ?_ ?_, by decide, by decide⟩
    · exact (show ∀ c ∈ [[0], [2]], c ≠ ([] : List Nat) by decide) c hc
    · exact (show ∀ c ∈ [[0], [2]], ∀ q ∈ c, q ∈ List.range 8 by decide) c hc
    · exact (show ∀ c ∈ [[0], [2]], c.IsChain (Coupler pairEdges) by decide) c hc

end MM
