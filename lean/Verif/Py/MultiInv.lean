import Verif.Py.Multi
import Verif.Props.Diagnose

/-! Invariants of the searches for several embeddings. -/

namespace MM

namespace Spec
namespace Py

open MM.Py

variable {α β : Type}

/-- The same nodes and the same edges, whatever the order. -/
def SameGraph (G H : Graph β) : Prop := (∀ q, q ∈ G.nodes ↔ q ∈ H.nodes) ∧ ∀ p q, G.Adj p q ↔ H.Adj p q

/-- What is asked of an embedder: its values are nodes or chains as announced, and it uses nodes of the target graph
it is given only. -/
def Honest (iter : Bool) (E : Env α β) : Prop :=
  ∀ k S G, ∀ kv ∈ E.embedder k S G, kv.2.isChain = iter ∧ ∀ q ∈ kv.2.nodes, q ∈ G.nodes

/-- No target node is used by two of the embeddings. -/
def Disjoint (embs : List (Emb α β)) : Prop := embs.Pairwise fun e f => ∀ q ∈ e.used, q ∉ f.used

end Py
end Spec

namespace Py

open Spec.Py

variable {α β τ : Type} [DecidableEq α] [DecidableEq β] [DecidableEq τ]

omit [DecidableEq α] [DecidableEq β] in
theorem removal_used {iter : Bool} {e : Emb α β} (h : ∀ kv ∈ e, kv.2.isChain = iter) : Emb.removal iter e = .ok e.used := by
  induction e with
  | nil => rfl
  | cons kv e ih =>
    have h1 := h kv (by simp)
    have h2 := ih (fun kv' hkv' => h kv' (by simp [hkv']))
    unfold Emb.removal
    have hv : kv.2.removal iter = .ok kv.2.nodes := by
      cases hk : kv.2 <;> rw [hk] at h1 <;> subst h1 <;> rfl
    rw [hv, h2]
    rfl

omit [DecidableEq α] in
theorem mem_remove {G : Graph β} {ns : List β} {q : β} : q ∈ (G.remove ns).nodes ↔ q ∈ G.nodes ∧ q ∉ ns := by
  unfold Graph.remove
  simp

omit [DecidableEq α] in
theorem remove_adj {G : Graph β} {ns : List β} {p q : β} : (G.remove ns).Adj p q ↔ G.Adj p q ∧ p ∉ ns ∧ q ∉ ns := by
  unfold Graph.remove Graph.Adj
  simp only [List.mem_filter, decide_eq_true_eq]
  tauto

omit [DecidableEq α] in
theorem SameGraph.remove {G H : Graph β} {l : List β} (h : SameGraph G (H.remove l)) (ns : List β) :
    SameGraph (G.remove ns) (H.remove (l ++ ns)) := by
  refine ⟨?_, ?_⟩
  · intro q
    rw [mem_remove, h.1, mem_remove, mem_remove, List.mem_append]
    tauto
  · intro p q
    rw [remove_adj, h.2, remove_adj, remove_adj, List.mem_append, List.mem_append]
    tauto

omit [DecidableEq α] in
theorem SameGraph.remove_nil (G : Graph β) : SameGraph G (G.remove []) :=
  ⟨fun q => by rw [mem_remove]; simp, fun p q => by rw [remove_adj]; simp⟩

omit [DecidableEq α] in
theorem SameGraph.trans {G H K : Graph β} (h : SameGraph G H) (h' : SameGraph H K) : SameGraph G K :=
  ⟨fun q => (h.1 q).trans (h'.1 q), fun p q => (h.2 p q).trans (h'.2 p q)⟩

/-- The caller's graph is left alone. -/
theorem multiLoop_target {E : Env α β} {S : Graph α} {uf iter : Bool} {m : Int} : ∀ (r k : Nat) (T : Graph β) (cur : Option (Graph β)) (embs : List (Emb α β)),
    (embs ≠ [] → 1 < m → cur ≠ none) → (multiLoop E S uf iter m r k T cur embs).2 = T := by
  intro r
  induction r with
  | zero => intro k T cur embs _; rfl
  | succ r ih =>
    intro k T cur embs hc
    unfold multiLoop
    dsimp only
    split
    · rfl
    split
    · rfl
    split
    · rfl
    split
    · rename_i hm
      cases hr : Emb.removal iter (E.embedder k S (cur.elim T id)) with
      | error x => rfl
      | ok ns =>
        dsimp only
        by_cases he : embs = []
        · rw [if_pos he]
          exact ih _ _ _ _ (by simp)
        · rw [if_neg he]
          cases hcur : cur with
          | none => exact absurd hcur (hc he hm)
          | some H => exact ih _ _ _ _ (by simp)
    · rename_i hm
      exact ih _ _ _ _ (fun _ h => absurd h hm)

/-- State of the loop. -/
structure MInv (E : Env α β) (S : Graph α) (iter : Bool) (m : Int) (r k : Nat) (T : Graph β) (cur : Option (Graph β)) (embs : List (Emb α β)) : Prop where
  len : embs.length = k
  few : ¬ 1 < m → k + r ≤ 1
  lim : k + r ≤ m.toNat
  same : 1 < m ∨ embs = [] → SameGraph (cur.elim T id) (T.remove (embs.flatMap Emb.used))
  cur : embs ≠ [] → 1 < m → cur ≠ none
  out : ∀ (i : Nat) (e : Emb α β), embs[i]? = some e → e ≠ [] ∧ ∃ G, SameGraph G (T.remove ((embs.take i).flatMap Emb.used)) ∧ e = E.embedder i S G

omit [DecidableEq α] in
theorem disjoint_of_out {E : Env α β} {S : Graph α} {iter : Bool} (hE : Honest iter E) {T : Graph β} {embs : List (Emb α β)}
    (out : ∀ (i : Nat) (e : Emb α β), embs[i]? = some e → ∃ G, SameGraph G (T.remove ((embs.take i).flatMap Emb.used)) ∧ e = E.embedder i S G) :
    Disjoint embs ∧ ∀ e ∈ embs, ∀ q ∈ e.used, q ∈ T.nodes := by
  have key : ∀ (i : Nat) (e : Emb α β), embs[i]? = some e → ∀ q ∈ e.used, q ∈ T.nodes ∧ ∀ f ∈ embs.take i, q ∉ f.used := by
    intro i e he q hq
    obtain ⟨G, h1, h2⟩ := out i e he
    unfold Emb.used at hq
    obtain ⟨kv, hkv, hq⟩ := List.mem_flatMap.mp hq
    rw [h2] at hkv
    have := (hE i S G kv hkv).2 q hq
    rw [h1.1, mem_remove] at this
    refine ⟨this.1, fun f hf hqf => this.2 (List.mem_flatMap.mpr ⟨f, hf, hqf⟩)⟩
  refine ⟨?_, ?_⟩
  · unfold Disjoint
    rw [List.pairwise_iff_getElem]
    intro i j hi hj hij q hq hq'
    have := (key j embs[j] (by simp [hj]) q hq').2 embs[i] (by
      rw [List.mem_take_iff_getElem]
      exact ⟨i, by omega, rfl⟩)
    exact this hq
  · intro e he q hq
    obtain ⟨i, hi⟩ := List.getElem?_of_mem he
    exact (key i e hi q hq).1

theorem multiLoop_spec {E : Env α β} {S : Graph α} {uf iter : Bool} {m : Int} (hk : 1 < m → ∀ k S G, ∀ kv ∈ E.embedder k S G, kv.2.isChain = iter) :
    ∀ (r k : Nat) (T : Graph β) (cur : Option (Graph β)) (embs : List (Emb α β)), MInv E S iter m r k T cur embs →
      ∃ embs', (multiLoop E S uf iter m r k T cur embs).1 = .ok embs' ∧ embs'.length ≤ m.toNat ∧
        ∀ (i : Nat) (e : Emb α β), embs'[i]? = some e → e ≠ [] ∧ ∃ G, SameGraph G (T.remove ((embs'.take i).flatMap Emb.used)) ∧ e = E.embedder i S G := by
  intro r
  induction r with
  | zero =>
    intro k T cur embs I
    refine ⟨embs, rfl, ?_, I.out⟩
    have := I.lim
    have := I.len
    omega
  | succ r ih =>
    intro k T cur embs I
    have hlen : embs.length ≤ m.toNat := by
      have := I.lim
      have := I.len
      omega
    unfold multiLoop
    dsimp only
    split
    · exact ⟨embs, rfl, hlen, I.out⟩
    split
    · exact ⟨embs, rfl, hlen, I.out⟩
    split
    · exact ⟨embs, rfl, hlen, I.out⟩
    rename_i hne
    have hout : ∀ (hs : SameGraph (cur.elim T id) (T.remove (embs.flatMap Emb.used))),
        ∀ (i : Nat) (e : Emb α β), (embs ++ [E.embedder k S (cur.elim T id)])[i]? = some e → e ≠ [] ∧
        ∃ G, SameGraph G (T.remove (((embs ++ [E.embedder k S (cur.elim T id)]).take i).flatMap Emb.used)) ∧ e = E.embedder i S G := by
      intro hs i e he
      by_cases hi : i < embs.length
      · rw [List.getElem?_append_left hi] at he
        rw [List.take_append_of_le_length (by omega)]
        exact I.out i e he
      · have hi' : i < (embs ++ [E.embedder k S (cur.elim T id)]).length := (List.getElem?_eq_some_iff.mp he).1
        rw [List.length_append, List.length_singleton] at hi'
        have hi'' : i = embs.length := by omega
        subst hi''
        rw [List.getElem?_append_right (Nat.le_refl _)] at he
        simp only [Nat.sub_self, List.getElem?_cons_zero, Option.some.injEq] at he
        rw [List.take_append_of_le_length (Nat.le_refl _), List.take_length]
        subst he
        refine ⟨hne, _, hs, ?_⟩
        rw [I.len]
    split
    · rename_i hm
      have hs := I.same (.inl hm)
      rw [removal_used (hk hm _ _ _)]
      dsimp only
      have hrem : ∀ H : Graph β, SameGraph H (T.remove (embs.flatMap Emb.used)) →
          SameGraph (H.remove (E.embedder k S (cur.elim T id)).used) (T.remove ((embs ++ [E.embedder k S (cur.elim T id)]).flatMap Emb.used)) := by
        intro H hH
        rw [List.flatMap_append]
        simp only [List.flatMap_cons, List.flatMap_nil, List.append_nil]
        exact SameGraph.remove hH _
      have fin : ∀ H : Graph β, SameGraph H (T.remove (embs.flatMap Emb.used)) →
          MInv E S iter m r (k + 1) T (some (H.remove (E.embedder k S (cur.elim T id)).used)) (embs ++ [E.embedder k S (cur.elim T id)]) := by
        intro H hH
        refine ⟨by simp [I.len], fun h => absurd hm h, by have := I.lim; omega, fun _ => hrem H hH, by simp, hout hs⟩
      by_cases he : embs = []
      · rw [if_pos he]
        exact ih _ _ _ _ (fin T (by rw [he]; exact SameGraph.remove_nil T))
      · rw [if_neg he]
        cases hcur : cur with
        | none => exact absurd hcur (I.cur he hm)
        | some H =>
          dsimp only
          rw [hcur] at hs
          have := fin H hs
          rw [hcur] at this
          exact ih _ _ _ _ this
    · rename_i hm
      have he : embs = [] := by
        have := I.few hm
        have := I.len
        exact List.length_eq_zero_iff.mp (by omega)
      refine ih _ _ _ _ ⟨by simp [I.len], fun h => by have := I.few h; omega, by have := I.lim; omega, ?_, fun _ h => absurd h hm, hout (I.same (.inr he))⟩
      rintro (h | h)
      · exact absurd h hm
      · simp at h

/-! ### Sublattices -/

/-- What a value uses, after a mapping. -/
theorem mapped_kind {iter : Bool} {f : τ → β} {e : Emb α τ} (h : ∀ kv ∈ e, kv.2.isChain = iter) : ∀ kv ∈ e.mapped iter f, kv.2.isChain = iter := by
  intro kv hkv
  unfold Emb.mapped at hkv
  obtain ⟨kv', hkv', rfl⟩ := List.mem_map.mp hkv
  have := h kv' hkv'
  dsimp only
  cases hv : kv'.2 <;> rw [hv] at this <;> subst this <;> rfl

/-- A valid proposal uses nodes of the target only. -/
theorem valid_nodes {iter : Bool} {p : Emb α β} {S : Graph α} {G : Graph β} {ordQ : List β → List β} {ordX : List α → List α}
    (hQ : ∀ l, (ordQ l).Perm l) (hX : ∀ l, (ordX l).Perm l) (hS : S.WF) (hG : G.WF)
    (hk : ∀ kv ∈ p, kv.2.isChain = iter) (hn : (p.map Prod.fst).Nodup) (hkeys : ∀ kv ∈ p, kv.1 ∈ S.nodes)
    (hv : isValid ordQ ordX (p.chains iter) S G = true) : ∀ q ∈ p.used, q ∈ G.nodes := by
  have hme := ((C27_is_valid hQ hX S G hS hG (p.chains iter)).mp hv).nodes
  intro q hq
  unfold Emb.used at hq
  obtain ⟨kv, hkv, hq⟩ := List.mem_flatMap.mp hq
  refine hme kv.1 (hkeys kv hkv) kv.2.nodes ?_ q hq
  unfold Emb.chains
  rw [(lookup_eq_some hn (x := kv.1) (y := kv.2)).mpr hkv]
  have := hk kv hkv
  cases hv : kv.2 <;> rw [hv] at this <;> subst this <;> rfl

/-- State of the loop over sublattices. -/
structure SInv (A : SubArgs α β τ) (m : Int) (T : Graph β) (cur : Option (Graph β)) (embs : List (Emb α β)) : Prop where
  disj : Disjoint embs
  used : ∀ e ∈ embs, ∀ q ∈ e.used, q ∈ T.nodes
  wf : (cur.elim T id).WF
  nodes : ∀ q ∈ (cur.elim T id).nodes, q ∈ T.nodes ∧ ∀ e ∈ embs, q ∉ e.used
  len : (embs.length : Int) < m ∨ embs = []

/-- What the search on one sublattice may give. -/
def GoodNew (A : SubArgs α β τ) (G : Graph β) (bound : Int) (new : List (Emb α β)) : Prop :=
  Disjoint new ∧ (∀ e ∈ new, ∀ q ∈ e.used, q ∈ G.nodes) ∧ (∀ e ∈ new, ∀ kv ∈ e, kv.2.isChain = A.iter) ∧
    (new.length : Int) ≤ bound

theorem removal_flatten {iter : Bool} {new : List (Emb α β)} (h : ∀ e ∈ new, ∀ kv ∈ e, kv.2.isChain = iter) :
    Emb.removal iter new.flatten = .ok (new.flatMap Emb.used) := by
  rw [removal_used]
  · congr 1
    clear h
    induction new with
    | nil => rfl
    | cons e new ih =>
      rw [List.flatten_cons, List.flatMap_cons, ← ih]
      unfold Emb.used
      rw [List.flatMap_append]
  · intro kv hkv
    obtain ⟨e, he, hk⟩ := List.mem_flatten.mp hkv
    exact h e he kv hk

theorem remove_nil (G : Graph β) : G.remove [] = G := by
  unfold Graph.remove
  cases G
  simp

theorem subLoop_spec {A : SubArgs α β τ} {tile : Graph τ} {te : Option (Emb α τ)} {uf : Bool} {m b : Int} (hb : 0 ≤ b) (hmb : m ≤ b)
    (hsub : ∀ (f : τ → β) (j : Nat) (G : Graph β) (embs : List (Emb α β)), G.WF → (embs.length : Int) < m ∨ embs = [] →
      ∃ new, subSearch A tile te uf m f j G embs = .ok new ∧ GoodNew A G (max (b - embs.length) 0) new) :
    ∀ (fs : List (τ → β)) (j : Nat) (T : Graph β) (cur : Option (Graph β)) (embs : List (Emb α β)), SInv A m T cur embs →
      (cur = none → m ≤ 1) →
      (subLoop A tile te uf m fs j T cur embs).2 = T ∧
      ∃ embs', (subLoop A tile te uf m fs j T cur embs).1 = .ok embs' ∧
        Disjoint embs' ∧ (∀ e ∈ embs', ∀ q ∈ e.used, q ∈ T.nodes) ∧ (embs'.length : Int) ≤ b := by
  intro fs
  induction fs with
  | nil =>
    intro j T cur embs I _
    refine ⟨rfl, embs, rfl, ?_⟩
    refine ⟨I.disj, I.used, ?_⟩
    rcases I.len with h | h
    · omega
    · rw [h]; simpa using hb
  | cons f fs ih =>
    intro j T cur embs I hcur
    have hlen : (embs.length : Int) ≤ b := by
      rcases I.len with h | h
      · omega
      · rw [h]; simpa using hb
    unfold subLoop
    split
    · exact ⟨rfl, embs, rfl, I.disj, I.used, hlen⟩
    · dsimp only
      obtain ⟨new, hx, n1, n2, n3, n4⟩ := hsub f j (cur.elim T id) embs I.wf I.len
      · rw [hx]
        dsimp only
        have hdisj : Disjoint (embs ++ new) := by
          unfold Disjoint
          rw [List.pairwise_append]
          refine ⟨I.disj, n1, ?_⟩
          intro e he g hg q hq hq'
          exact (I.nodes q (n2 g hg q hq')).2 e he hq
        have hused : ∀ e ∈ embs ++ new, ∀ q ∈ e.used, q ∈ T.nodes := by
          intro e he q hq
          rcases List.mem_append.mp he with he | he
          · exact I.used e he q hq
          · exact (I.nodes q (n2 e he q hq)).1
        split
        · refine ⟨rfl, embs ++ new, rfl, ?_⟩
          refine ⟨hdisj, hused, ?_⟩
          rw [List.length_append]
          push_cast
          omega
        · rename_i hlt
          rw [removal_flatten n3]
          dsimp only
          have fin : ∀ H : Graph β, H = cur.elim T id → SInv A m T (some (H.remove (new.flatMap Emb.used))) (embs ++ new) := by
            intro H hH
            subst hH
            refine ⟨hdisj, hused, I.wf.remove _, ?_, .inl (by omega)⟩
            intro q hq
            simp only [Option.elim_some, id] at hq
            rw [mem_remove] at hq
            refine ⟨(I.nodes q hq.1).1, ?_⟩
            intro e he
            rcases List.mem_append.mp he with he | he
            · exact (I.nodes q hq.1).2 e he
            · intro hqe
              exact hq.2 (List.mem_flatMap.mpr ⟨e, he, hqe⟩)
          cases hc : cur with
          | some H => exact ih _ _ _ _ (fin H (by rw [hc]; rfl)) (by simp)
          | none =>
            have hm := hcur hc
            have h0 : (embs ++ new).length = 0 := by omega
            have hnil : embs ++ new = [] := List.length_eq_zero_iff.mp h0
            have hnew : new = [] := (List.append_eq_nil_iff.mp hnil).2
            dsimp only
            rw [hnil, hnew]
            simp only [List.flatMap_nil]
            rw [remove_nil]
            refine ih _ _ _ _ ⟨.nil, by simp, ?_, ?_, .inr rfl⟩ (fun _ => hm)
            · have := I.wf; rw [hc] at this; exact this
            · intro q hq; exact ⟨hq, by simp⟩

end Py
end MM
