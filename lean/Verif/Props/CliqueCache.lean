import Verif.Cache.MergeInv
import Verif.Bus.BestInv
import Verif.Props.BusDemo

/-! C35, C36, C37: the clique cache of Python. -/

namespace MM

open Cache Spec

/-- C35: the index for a size is the smallest chain length whose stored embedding has at least as many chains. -/
theorem C35_index (embs : List Emb) (n i : Nat) :
    dget (make embs).size n = some i ↔ (∃ e, embs[i]? = some e ∧ n ≤ e.length) ∧ ∀ j < i, ∀ e, embs[j]? = some e → e.length < n :=
  (make_ok embs).size n i

/-- C35: asking for a clique gives the first chains of that embedding, one for each node; if no stored embedding is large enough, nothing. -/
theorem C35_find {α : Type} (embs : List Emb) (nodes : List α) :
    (∃ (i : Nat) (e : Emb), embs[i]? = some e ∧ nodes.length ≤ e.length ∧ (∀ j < i, ∀ e', embs[j]? = some e' → e'.length < nodes.length) ∧
      find (make embs) nodes = .ok (nodes.zip e)) ∨
    (∀ e ∈ embs, e.length < nodes.length) ∧ find (make embs) nodes = .ok [] := by
  have h := make_ok embs
  cases hd : dget (make embs).size nodes.length with
  | some i =>
    left
    obtain ⟨⟨e, h1, h2⟩, h3⟩ := (h.size _ _).mp hd
    refine ⟨i, e, h1, h2, h3, ?_⟩
    simp only [find, hd, rawAt, h.raw, h1, bind, Except.bind]; rfl
  | none =>
    right
    refine ⟨fun e he => ?_, by simp only [find, hd]⟩
    by_contra hc
    obtain ⟨i, hi⟩ := first_exists ⟨e, he, Nat.le_of_not_lt hc⟩
    rw [(h.size _ _).mpr hi] at hd
    cases hd

/-- C35: `largest_clique` gives a largest embedding. -/
theorem C35_largest {embs : List Emb} (hne : embs ≠ []) : ∃ e ∈ embs, largest (make embs) = .ok e ∧ ∀ e' ∈ embs, e'.length ≤ e.length := by
  have h := make_ok embs
  obtain ⟨m1, m2⟩ := maxKey_ok (d := (make embs).size)
  have hall : ∀ e ∈ embs, e.length ∈ (make embs).size.map Prod.fst := by
    intro e he
    obtain ⟨i, hi⟩ := first_exists ⟨e, he, Nat.le_refl _⟩
    rw [← dget_isSome, (h.size _ _).mpr hi]; rfl
  cases hk : maxKey (make embs).size with
  | none =>
    obtain ⟨e, he⟩ := List.exists_mem_of_ne_nil _ hne
    have := hall e he
    rw [m1.mp hk] at this
    cases this
  | some k =>
    obtain ⟨k1, k2⟩ := m2 k hk
    obtain ⟨i, hi⟩ := Option.isSome_iff_exists.mp (dget_isSome.mpr k1)
    obtain ⟨⟨e, h1, h2⟩, h3⟩ := (h.size _ _).mp hi
    refine ⟨e, List.mem_of_getElem? h1, ?_, fun e' he' => Nat.le_trans (k2 _ (hall e' he')) h2⟩
    simp only [largest, hk, hi, rawAt, h.raw, h1]

example : (make [[], [[0], [3]], [[4, 6], [5, 7]], [[4, 12, 6], [5, 13, 7], [8, 10, 14], [9, 11, 15]]]).size = [(0, 0), (2, 1), (1, 1), (4, 3), (3, 3)] := by decide +kernel

theorem snd_zip {α β : Type} (a : List α) (b : List β) : (a.zip b).map Prod.snd = b.take a.length := by
  induction a generalizing b with
  | nil => simp
  | cons x a ih => cases b <;> simp [ih]

/-- C60 through the cache: for every graph of the three families and every list of node labels, either the answer is empty and all stored embeddings are too small, or it
is a valid embedding of the clique on these nodes; and no embedding with shorter longest chain that is stored has enough chains. -/
theorem C60_cached {α : Type} {T : Bus.Topo} {nodes : List Nat} {edges : List (Nat × Nat)} (hG : Lattice.WFGraph T nodes edges) {bound : Nat} (hb : 0 < bound) {D D' : Bus.Draws} (hD : D.Perm) (hD' : D'.Perm)
    (labels : List α) : ∃ r res, Bus.bestCliques T bound D D' nodes edges = .ok r ∧ find (make r) labels = .ok res ∧
      ((∀ e ∈ r, e.length < labels.length) ∧ res = [] ∨
        res.map Prod.fst = labels ∧ CliqueEmbedding nodes edges (res.map Prod.snd) ∧ (∀ c ∈ res.map Prod.snd, c.Nodup) ∧
          ∃ i, (∀ c ∈ res.map Prod.snd, c.length ≤ i) ∧ ∀ j < i, ∀ e, r[j]? = some e → e.length < labels.length) := by
  obtain ⟨l, r, h1, h2, h3, h4, h5, h6⟩ := Bus.bestCliques_ok hG hb hD hD'
  rcases C35_find r labels with ⟨i, e, e1, e2, e3, e4⟩ | ⟨e1, e2⟩
  · refine ⟨r, _, h3, e4, .inr ⟨List.map_fst_zip e2, ?_⟩⟩
    obtain ⟨a, b, c, d⟩ := h4 i e e1
    rw [snd_zip]
    have hsub : (e.take labels.length).Sublist e := List.take_sublist _ _
    exact ⟨⟨fun c hc => a.chains c (hsub.subset hc), a.disjoint.sublist hsub, a.adjacent.sublist hsub⟩, fun c hc => b c (hsub.subset hc), i, fun x hx => c x (hsub.subset hx), e3⟩
  · exact ⟨r, _, h3, e2, .inl ⟨e1, rfl⟩⟩

/-- How a re-imported cache answers: with the same nodes and, in another order, the same chains. -/
def SameAnswer {α : Type} (c c' : Cliques) (nodes : List α) : Prop :=
  ∃ a b, find c nodes = .ok a ∧ find c' nodes = .ok b ∧ a.map Prod.fst = b.map Prod.fst ∧ (a.map Prod.snd).Perm (b.map Prod.snd)

theorem find_zip {α : Type} {c : Cliques} {nodes : List α} {k : Nat} {e : Emb} (h1 : dget c.size nodes.length = some k) (h2 : c.raw[k]? = some e) : find c nodes = .ok (nodes.zip e) := by
  simp only [find, h1, rawAt, h2, bind, Except.bind]; rfl

theorem sound_blank : Sound blank := (make_ok [[]]).sound

theorem blank_size {n : Nat} (hn : n ≠ 0) : dget blank.size n = none := by
  have : blank.size = [(0, 0)] := by decide
  rw [this]
  simp only [dget]
  rw [if_neg (fun h => hn h.symm)]

/-- Importing exported embeddings into an empty cache. -/
theorem reimport {embs L : List Emb} (hL : L.Pairwise fun a b => a.length ≠ b.length)
    (hx : ∀ x ∈ L, ∃ k e, dget (make embs).size x.length = some k ∧ (make embs).raw[k]? = some e ∧ x = e.take x.length) :
    ∃ c', L.foldlM insertDirect blank = .ok c' ∧ (∀ {α : Type} (nodes : List α), (∃ x ∈ L, x.length = nodes.length) → SameAnswer (make embs) c' nodes) ∧
      ∀ {α : Type} (nodes : List α), (∀ x ∈ L, x.length ≠ nodes.length) → nodes ≠ [] → find c' nodes = .ok [] := by
  obtain ⟨c', a1, a2, a3, a4, a5⟩ := insertAll_ok hL sound_blank
  refine ⟨c', a1, ?_, ?_⟩
  · rintro α nodes ⟨x, hxL, hlen⟩
    obtain ⟨k, e, b1, b2, b3⟩ := hx x hxL
    obtain ⟨k', c1, c2⟩ := a4 x hxL
    rw [hlen] at b1 c1
    have hle : nodes.length ≤ e.length := by
      have := congrArg List.length b3
      rw [List.length_take] at this; omega
    refine ⟨_, _, find_zip b1 b2, find_zip c1 c2, ?_, ?_⟩
    · rw [List.map_fst_zip hle, List.map_fst_zip (by rw [sortLen_length, hlen])]
    · have h2 : (sortLen x).take nodes.length = sortLen x := List.take_of_length_le (by rw [sortLen_length, hlen])
      have h3 : e.take nodes.length = x := by rw [← hlen]; exact b3.symm
      rw [snd_zip, snd_zip, h2, h3]
      exact (sortLen_perm x).symm
  · intro α nodes hn hne
    have hd : dget c'.size nodes.length = none := by rw [a5 _ hn, blank_size (by simpa using hne)]
    simp only [find, hd]

/-- C36: exporting the cache as a dictionary and importing it into an empty cache keeps all sizes, with the same chains. -/
theorem C36_sparse (embs : List Emb) (disk : Option Cliques) (write : Bool) :
    ∃ out s c', getSparse (make embs) = .ok out ∧ (∀ n e, (n, e) ∈ out → e.length = n) ∧ update ⟨none, disk⟩ (out.map Prod.snd) write = .ok s ∧ s.mem = some c' ∧ (write = true → s.disk = some c') ∧
      ∀ {α : Type} (nodes : List α), SameAnswer (make embs) c' nodes := by
  have h := make_ok embs
  have hs := h.sound
  have key : ∀ d : Dict Nat Nat, (∀ p ∈ d, p ∈ (make embs).size) → ∃ out, d.mapM (fun p => do
        let e ← rawAt (make embs) p.2
        pure (p.1, e.take p.1)) = .ok out ∧
      (∀ n x, (n, x) ∈ out → x.length = n ∧ ∃ k e, dget (make embs).size n = some k ∧ (make embs).raw[k]? = some e ∧ x = e.take n) ∧ out.map Prod.fst = d.map Prod.fst := by
    intro d
    induction d with
    | nil => intro _; exact ⟨[], rfl, by simp, rfl⟩
    | cons p d ih =>
      intro hd
      obtain ⟨out, o1, o2, o3⟩ := ih fun p hp => hd p (List.mem_cons_of_mem _ hp)
      obtain ⟨n, k⟩ := p
      have hk := dget_of_mem h.nodup (hd (n, k) List.mem_cons_self)
      obtain ⟨e, e1, e2⟩ := hs.size n k hk
      refine ⟨(n, e.take n) :: out, ?_, ?_, by simp [o3]⟩
      · simp only [List.mapM_cons, rawAt, e1, bind, Except.bind, pure, Except.pure]
        simp only [rawAt, bind, Except.bind, pure, Except.pure] at o1
        rw [o1]
      · intro n' x hx
        rcases List.mem_cons.mp hx with hx | hx
        · cases hx
          exact ⟨by simp [e2], k, e, hk, e1, rfl⟩
        · exact o2 n' x hx
  obtain ⟨out, o1, o2, o3⟩ := key _ fun p hp => hp
  have hpair : (out.map Prod.snd).Pairwise fun a b => a.length ≠ b.length := by
    have hn := h.nodup
    rw [← o3, List.Nodup, List.pairwise_map] at hn
    rw [List.pairwise_map]
    refine hn.imp_of_mem ?_
    rintro ⟨n, x⟩ ⟨n', x'⟩ hx hx' hne
    simp only at hne ⊢
    rw [(o2 n x hx).1, (o2 n' x' hx').1]; exact hne
  obtain ⟨c', c1, c2, c3⟩ := reimport (embs := embs) hpair (by
    intro x hx
    obtain ⟨⟨n, x'⟩, hp, rfl⟩ := List.mem_map.mp hx
    obtain ⟨a, k, e, b1, b2, b3⟩ := o2 n x' hp
    exact ⟨k, e, by rw [a]; exact b1, b2, by rw [a]; exact b3⟩)
  refine ⟨out, ⟨some c', if write then some c' else disk⟩, c', o1, fun n e he => (o2 n e he).1, ?_, rfl, ?_, ?_⟩
  · simp only [update, ensureBlank, c1, bind, Except.bind]; rfl
  · intro hw; simp [hw]
  · intro α nodes
    by_cases hk : nodes.length ∈ (make embs).size.map Prod.fst
    · rw [← o3] at hk
      obtain ⟨⟨n, x⟩, hp, hn⟩ := List.mem_map.mp hk
      simp only at hn
      exact c2 nodes ⟨x, List.mem_map.mpr ⟨_, hp, rfl⟩, by rw [(o2 n x hp).1, hn]⟩
    · have hnone : dget (make embs).size nodes.length = none := by
        cases hd : dget (make embs).size nodes.length with
        | none => rfl
        | some k => exact absurd (dget_isSome.mp (by rw [hd]; rfl)) hk
      have hfind : find (make embs) nodes = .ok [] := by simp only [find, hnone]
      cases nodes with
      | nil =>
        refine ⟨[], [], hfind, ?_, rfl, .refl _⟩
        have : ∃ k e, dget c'.size 0 = some k ∧ c'.raw[k]? = some e := by
          obtain ⟨d', a1, a2, a3, a4, a5⟩ := insertAll_ok hpair sound_blank
          rw [c1] at a1; cases a1
          by_cases h0 : ∃ x ∈ out.map Prod.snd, x.length = 0
          · obtain ⟨x, hx, hx0⟩ := h0
            obtain ⟨k, b1, b2⟩ := a4 x hx
            exact ⟨k, _, by rw [hx0] at b1; exact b1, b2⟩
          · have h0' := a5 0 (fun x hx he => h0 ⟨x, hx, he⟩)
            exact ⟨0, [], by rw [h0']; decide, a3 0 [] (by decide)⟩
        obtain ⟨k, e, b1, b2⟩ := this
        rw [find_zip (nodes := ([] : List α)) b1 b2]; rfl
      | cons v nodes =>
        refine ⟨[], [], hfind, c3 _ ?_ (by simp), rfl, .refl _⟩
        intro x hx he
        obtain ⟨⟨n, x'⟩, hp, rfl⟩ := List.mem_map.mp hx
        refine hk ?_
        rw [← o3]
        refine List.mem_map.mpr ⟨_, hp, ?_⟩
        simp only at he ⊢
        rw [← he, (o2 n x' hp).1]

/-- C36: exporting it as a list and importing that loses the largest clique, and only that. -/
theorem C36_dense {embs : List Emb} {m : Nat} (hm : maxKey (make embs).size = some m) (h0 : m ≠ 0) (disk : Option Cliques) (write : Bool) :
    ∃ out s c', getDense (make embs) = .ok out ∧ update ⟨none, disk⟩ out write = .ok s ∧ s.mem = some c' ∧
      (∀ {α : Type} (nodes : List α), nodes.length ≠ m → SameAnswer (make embs) c' nodes) ∧
      ∀ {α : Type} (nodes : List α), nodes.length = m → (∃ a, find (make embs) nodes = .ok a ∧ a.map Prod.fst = nodes) ∧ find c' nodes = .ok [] := by
  have h := make_ok embs
  have hs := h.sound
  obtain ⟨m1, m2⟩ := (maxKey_ok (d := (make embs).size)).2 m hm
  obtain ⟨km, hkm⟩ := Option.isSome_iff_exists.mp (dget_isSome.mpr m1)
  obtain ⟨em, em1, em2⟩ := hs.size m km hkm
  have hall : ∀ n, n ≤ m → ∃ k e, dget (make embs).size n = some k ∧ (make embs).raw[k]? = some e ∧ n ≤ e.length := by
    intro n hn
    obtain ⟨i, hi⟩ := first_exists (embs := embs) (n := n) ⟨em, by rw [h.raw] at em1; exact List.mem_of_getElem? em1, by omega⟩
    have := (h.size n i).mpr hi
    obtain ⟨e, e1, e2⟩ := hs.size n i this
    exact ⟨i, e, this, e1, e2⟩
  have key : ∀ l : List Nat, (∀ n ∈ l, n ≤ m) → ∃ out, l.mapM (fun i => match dget (make embs).size i with
        | some key => do
          let e ← rawAt (make embs) key
          pure (e.take i)
        | none => pure []) = .ok out ∧ (∀ x ∈ out, ∃ k e, dget (make embs).size x.length = some k ∧ (make embs).raw[k]? = some e ∧ x = e.take x.length) ∧ out.map List.length = l := by
    intro l
    induction l with
    | nil => intro _; exact ⟨[], rfl, by simp, rfl⟩
    | cons n l ih =>
      intro hl
      obtain ⟨out, o1, o2, o3⟩ := ih fun n hn => hl n (List.mem_cons_of_mem _ hn)
      obtain ⟨k, e, e1, e2, e3⟩ := hall n (hl n List.mem_cons_self)
      have hlen : (e.take n).length = n := by simp [e3]
      refine ⟨e.take n :: out, ?_, ?_, by rw [List.map_cons, o3, hlen]⟩
      · rw [List.mapM_cons, o1]
        simp only [e1, rawAt, e2, bind, Except.bind, pure, Except.pure]
      · intro x hx
        rcases List.mem_cons.mp hx with rfl | hx
        · exact ⟨k, e, by rw [hlen]; exact e1, e2, by rw [hlen]⟩
        · exact o2 x hx
  obtain ⟨out, o1, o2, o3⟩ := key (List.range m) (fun n hn => Nat.le_of_lt (List.mem_range.mp hn))
  have hpair : out.Pairwise fun a b => a.length ≠ b.length := by
    have hn := List.nodup_range (n := m)
    rw [← o3, List.Nodup, List.pairwise_map] at hn
    exact hn
  have hmem : ∀ n, (∃ x ∈ out, x.length = n) ↔ n < m := by
    intro n
    rw [← List.mem_range, ← o3, List.mem_map]
  obtain ⟨c', c1, c2, c3⟩ := reimport (embs := embs) hpair o2
  have hfail : ∀ {α : Type} (nodes : List α), m ≤ nodes.length → find c' nodes = .ok [] := by
    intro α nodes hn
    refine c3 nodes (fun x hx he => ?_) (by rintro rfl; simp at hn; omega)
    have := (hmem nodes.length).mp ⟨x, hx, he⟩
    omega
  refine ⟨out, ⟨some c', if write then some c' else disk⟩, c', by simp only [getDense, hm]; exact o1, ?_, rfl, ?_, ?_⟩
  · simp only [update, ensureBlank, c1, bind, Except.bind]; rfl
  · intro α nodes hn
    rcases Nat.lt_or_ge nodes.length m with hlt | hge
    · exact c2 nodes ((hmem _).mpr hlt)
    · have hnone : dget (make embs).size nodes.length = none := by
        cases hd : dget (make embs).size nodes.length with
        | none => rfl
        | some k =>
          have := m2 _ (dget_isSome.mp (by rw [hd]; rfl))
          omega
      exact ⟨[], [], by simp only [find, hnone], hfail nodes hge, rfl, .refl _⟩
  · intro α nodes hn
    refine ⟨⟨_, find_zip (by rw [hn]; exact hkm) em1, List.map_fst_zip (by rw [hn]; exact em2)⟩, hfail nodes (by omega)⟩

/-- The stored cliques of a Chimera graph of four cells. -/
def fourCells : List Emb := [[], [[0], [3]], [[4, 6], [5, 7]], [[4, 12, 6], [5, 13, 7], [8, 10, 14], [9, 11, 15]]]

/-- What a cache answers for `n` nodes. -/
def answer (c : Cliques) (n : Nat) : Option (List (Nat × List Nat)) := (find c (List.range n)).toOption

/-- What the cache answers for `n` nodes after export as a list and import. -/
def denseTrip (embs : List Emb) (n : Nat) : Option (List (Nat × List Nat)) := do
  let out ← (getDense (make embs)).toOption
  let s ← (update ⟨none, none⟩ out false).toOption
  let c ← s.mem
  answer c n

/-- The cliques of 4 nodes are gone. -/
example : maxKey (make fourCells).size = some 4 ∧ denseTrip fourCells 3 = some [(0, [4, 12, 6]), (1, [5, 13, 7]), (2, [8, 10, 14])] ∧ denseTrip fourCells 4 = some [] ∧
    answer (make fourCells) 4 = some [(0, [4, 12, 6]), (1, [5, 13, 7]), (2, [8, 10, 14]), (3, [9, 11, 15])] := by decide +kernel

/-- The cache offers a clique of `n` nodes with chains of at most `L` qubits. -/
def Offers (c : Cliques) (n L : Nat) : Prop :=
  ∃ k e, dget c.size n = some k ∧ c.raw[k]? = some e ∧ n ≤ e.length ∧ ∀ ch ∈ e.take n, ch.length ≤ L

/-- What is missing from C37: stored embeddings list their chains by increasing length. It is true of those that were inserted, but not of those that were computed. -/
def SortedChains (c : Cliques) : Prop := ∀ e ∈ c.raw, e.Pairwise fun a b => a.length ≤ b.length

theorem last_longest {e : Emb} (h : e.Pairwise fun a b => a.length ≤ b.length) {n : Nat} (hn : 0 < n) (hl : n ≤ e.length) : ∀ ch ∈ e.take n, ch.length ≤ (e[n - 1]'(by omega)).length := by
  intro ch hch
  obtain ⟨j, hj, hje⟩ := List.getElem_of_mem hch
  rw [List.length_take] at hj
  rw [List.getElem_take] at hje
  subst hje
  rw [List.pairwise_iff_getElem] at h
  rcases Nat.lt_or_ge j (n - 1) with hlt | hge
  · exact h j (n - 1) (by omega) (by omega) hlt
  · obtain rfl : j = n - 1 := by omega
    exact Nat.le_refl _

/-- C37, for caches in memory whose embeddings list their chains by length: the merged cache offers each size with the shortest chains that one of the two offers,
and all its embeddings are of one of the two. -/
theorem C37_merge_partial {c0 c1 : Cliques} (h0 : Sound c0) (h1 : Sound c1) (s0 : SortedChains c0) (s1 : SortedChains c1) :
    ∃ c, merge c0 c1 = .ok c ∧ Sound c ∧ SortedChains c ∧ (∀ n L, Offers c0 n L ∨ Offers c1 n L → Offers c n L) ∧ ∀ e ∈ c.raw, e ∈ c0.raw ∨ e ∈ c1.raw := by
  obtain ⟨c, a1, a2, a3, a4, a5⟩ := merge_ok h0 h1
  refine ⟨c, a1, a2, fun e he => ?_, fun n L hL => ?_, a5⟩
  · rcases a5 e he with h | h
    · exact s0 e h
    · exact s1 e h
  · have hs : (dget c.size n).isSome := by
      rw [a3]
      rcases hL with ⟨k, e, h, _⟩ | ⟨k, e, h, _⟩
      · left; rw [h]; rfl
      · right; rw [h]; rfl
    obtain ⟨v, hv⟩ := Option.isSome_iff_exists.mp hs
    obtain ⟨k, k1, k2⟩ := a4 n v hv
    obtain ⟨e, e1, e2⟩ := a2.size n v hv
    refine ⟨v, e, hv, e1, e2, ?_⟩
    rw [e1] at k2
    by_cases hn : n = 0
    · subst hn; simp
    simp only [pickSize] at k1
    cases d0 : dget c0.size n with
    | none =>
      cases d1 : dget c1.size n with
      | none => simp only [d0, d1] at k1; cases k1
      | some j1 =>
        simp only [d0, d1] at k1; cases k1
        rcases hL with ⟨j, e', b1, _⟩ | ⟨j, e', b1, b2, b3, b4⟩
        · rw [d0] at b1; cases b1
        · rw [d1] at b1; cases b1
          have k2 : some e = c1.raw[j1]? := k2
          rw [b2] at k2; cases k2; exact b4
    | some j0 =>
      obtain ⟨x0, g0, l0⟩ := h0.size n j0 d0
      cases d1 : dget c1.size n with
      | none =>
        simp only [d0, d1] at k1; cases k1
        rcases hL with ⟨j, e', b1, b2, b3, b4⟩ | ⟨j, e', b1, _⟩
        · rw [d0] at b1; cases b1
          have k2 : some e = c0.raw[j0]? := k2
          rw [b2] at k2; cases k2; exact b4
        · rw [d1] at b1; cases b1
      | some j1 =>
        obtain ⟨x1, g1, l1⟩ := h1.size n j1 d1
        have a0 : chainAt c0 j0 n = .ok (x0[n - 1]'(by omega)).length := by
          simp only [chainAt, rawAt, g0, bind, Except.bind, List.getElem?_eq_getElem (show n - 1 < x0.length by omega)]
        have a1 : chainAt c1 j1 n = .ok (x1[n - 1]'(by omega)).length := by
          simp only [chainAt, rawAt, g1, bind, Except.bind, List.getElem?_eq_getElem (show n - 1 < x1.length by omega)]
        have m0 := last_longest (s0 x0 (List.mem_of_getElem? g0)) (show 0 < n by omega) l0
        have m1 := last_longest (s1 x1 (List.mem_of_getElem? g1)) (show 0 < n by omega) l1
        have t0 : x0[n - 1]'(by omega) ∈ x0.take n := List.mem_take_iff_getElem.mpr ⟨n - 1, by omega, rfl⟩
        have t1 : x1[n - 1]'(by omega) ∈ x1.take n := List.mem_take_iff_getElem.mpr ⟨n - 1, by omega, rfl⟩
        have hL' : (x0[n - 1]'(by omega)).length ≤ L ∨ (x1[n - 1]'(by omega)).length ≤ L := by
          rcases hL with ⟨j, e', b1, b2, b3, b4⟩ | ⟨j, e', b1, b2, b3, b4⟩
          · rw [d0] at b1; cases b1
            rw [g0] at b2; cases b2
            exact .inl (b4 _ t0)
          · rw [d1] at b1; cases b1
            rw [g1] at b2; cases b2
            exact .inr (b4 _ t1)
        simp only [d0, d1, if_neg hn, a0, a1, bind, Except.bind] at k1
        split at k1
        · cases k1
          have k2 : some e = c0.raw[j0]? := k2
          rw [g0] at k2; cases k2
          intro ch hch
          have := m0 ch hch
          omega
        · cases k1
          have k2 : some e = c1.raw[j1]? := k2
          rw [g1] at k2; cases k2
          intro ch hch
          have := m1 ch hch
          omega

theorem filter_prefix {e : Emb} (h : e.Pairwise fun a b => a.length ≤ b.length) (i : Nat) : ∀ ch ∈ e.filter (fun c => c.length ≤ i), ch.length ≤ i := by
  intro ch hch
  simpa using (List.mem_filter.mp hch).2

theorem foldl_max {e : Emb} : ∀ m, m ≤ e.foldl (fun m c => max m c.length) m ∧ ∀ c ∈ e, c.length ≤ e.foldl (fun m c => max m c.length) m := by
  induction e with
  | nil => simp
  | cons x e ih =>
    intro m
    rw [List.foldl_cons]
    obtain ⟨a, b⟩ := ih (max m x.length)
    refine ⟨by omega, ?_⟩
    intro c hc
    rcases List.mem_cons.mp hc with rfl | hc
    · omega
    · exact b c hc

/-- The cache that `insert_clique_embedding` merges offers all that the embedding offers. -/
theorem insertCache_offers (emb : Emb) : Sound (insertCache emb) ∧ SortedChains (insertCache emb) ∧
    (∀ n L, n ≤ (emb.filter fun c => c.length ≤ L).length → Offers (insertCache emb) n L) ∧ ∀ e ∈ (insertCache emb).raw, ∀ c ∈ e, c ∈ emb := by
  have h := make_ok ((List.range ((sortLen emb).foldl (fun m c => max m c.length) 0 + 1)).map fun i => (sortLen emb).filter fun c => c.length ≤ i)
  have hget : ∀ (i : Nat) e, (insertCache emb).raw[i]? = some e → e = (sortLen emb).filter fun c => c.length ≤ i := by
    intro i e he
    simp only [insertCache] at he
    rw [h.raw, List.getElem?_map, Option.map_eq_some_iff] at he
    obtain ⟨j, hj, rfl⟩ := he
    rw [(List.getElem?_eq_some_iff.mp hj).2.symm, List.getElem_range]
  refine ⟨h.sound, fun e he => ?_, fun n L hn => ?_, fun e he c hc => ?_⟩
  · obtain ⟨i, hi⟩ := List.getElem?_of_mem he
    rw [hget i e hi]
    exact (sortLen_sorted emb).filter _
  · have hm := (foldl_max (e := sortLen emb) 0).2
    generalize hM : (sortLen emb).foldl (fun m c => max m c.length) 0 = M at h hm
    have hp : ∀ i, ((sortLen emb).filter fun c => c.length ≤ i).length = (emb.filter fun c => c.length ≤ i).length := fun i => ((sortLen_perm emb).filter _).length_eq
    have hL : ∃ e ∈ (List.range (M + 1)).map fun i => (sortLen emb).filter fun c => c.length ≤ i, n ≤ e.length := by
      refine ⟨_, List.mem_map.mpr ⟨min L M, List.mem_range.mpr (by omega), rfl⟩, ?_⟩
      rw [hp]
      refine Nat.le_trans hn (Nat.le_of_eq (congrArg List.length (List.filter_congr ?_)))
      intro c hc
      have := hm c ((sortLen_perm emb).mem_iff.mpr hc)
      simp; omega
    obtain ⟨i, hi⟩ := first_exists hL
    obtain ⟨⟨e, e1, e2⟩, e3⟩ := hi
    have hsz := (h.size n i).mpr ⟨⟨e, e1, e2⟩, e3⟩
    have hraw : (insertCache emb).raw[i]? = some e := by simp only [insertCache, hM]; rw [h.raw]; exact e1
    refine ⟨i, e, by simp only [insertCache, hM]; exact hsz, hraw, e2, ?_⟩
    have hiL : i ≤ L := by
      by_contra hc
      have hiM : i < M + 1 := by
        have := (List.getElem?_eq_some_iff.mp e1).1
        simpa using this
      have := e3 L (by omega) ((sortLen emb).filter fun c => c.length ≤ L) (by
        rw [List.getElem?_map, List.getElem?_eq_getElem (by simpa using by omega)]
        simp)
      rw [hp] at this
      omega
    intro ch hch
    have := List.mem_of_mem_take hch
    rw [hget i e hraw] at this
    have := filter_prefix (sortLen_sorted emb) i ch this
    omega
  · obtain ⟨i, hi⟩ := List.getElem?_of_mem he
    rw [hget i e hi] at hc
    exact (sortLen_perm emb).mem_iff.mp (List.mem_filter.mp hc).1

/-- C37 for insertion into a cache in memory whose embeddings list their chains by length: all that was offered is still offered, and so is
every number of chains of the inserted embedding with its shortest chains. -/
theorem C37_insert_partial {c : Cliques} (h : Sound c) (hs : SortedChains c) (disk : Option Cliques) (emb : Emb) (write : Bool) :
    ∃ c', insertClique ⟨some c, disk⟩ emb write = .ok ⟨some c', if write then some c' else disk⟩ ∧ Sound c' ∧ SortedChains c' ∧ (∀ n L, Offers c n L → Offers c' n L) ∧
      (∀ n L, n ≤ (emb.filter fun ch => ch.length ≤ L).length → Offers c' n L) ∧ ∀ e ∈ c'.raw, e ∈ c.raw ∨ ∀ ch ∈ e, ch ∈ emb := by
  obtain ⟨a1, a2, a3, a4⟩ := insertCache_offers emb
  obtain ⟨c', b1, b2, b3, b4, b5⟩ := C37_merge_partial a1 h a2 hs
  refine ⟨c', ?_, b2, b3, fun n L hn => b4 n L (.inr hn), fun n L hn => b4 n L (.inl (a3 n L hn)), fun e he => ?_⟩
  · simp only [insertClique, mergeStore, ensureBlank, b1, bind, Except.bind]; rfl
  · rcases b5 e he with h | h
    · exact .inr (a4 e h)
    · exact .inl h

theorem sound_make (embs : List Emb) : Sound (make embs) := (make_ok embs).sound

example : SortedChains (make fourCells) ∧ Offers (make fourCells) 4 3 ∧ ¬ Offers (make fourCells) 3 2 := by
  have h1 : ∀ e ∈ (make fourCells).raw, e.Pairwise fun a b => a.length ≤ b.length := by decide +kernel
  refine ⟨h1, ⟨3, _, by decide +kernel, rfl, by decide +kernel, by decide +kernel⟩, ?_⟩
  rintro ⟨k, e, h1, h2, h3, h4⟩
  have : dget (make fourCells).size 3 = some 3 := by decide +kernel
  rw [this] at h1; cases h1
  have : (make fourCells).raw[3]? = some [[4, 12, 6], [5, 13, 7], [8, 10, 14], [9, 11, 15]] := by decide +kernel
  rw [this] at h2; cases h2
  have := h4 [4, 12, 6] (by decide)
  simp at this

/-- C37 is false for the disk: a new object that inserts an embedding starts from a blank cache and writes that, so what was on disk does not matter, and is lost. -/
theorem C37_disk_lost (disk disk' : Option Cliques) (emb : Emb) : insertClique ⟨none, disk⟩ emb true = insertClique ⟨none, disk'⟩ emb true := by
  simp only [insertClique, mergeStore, ensureBlank]
  cases merge (insertCache emb) blank <;> rfl

/-- What a new object that finds `c` on disk answers for `n` nodes, after another new object has inserted `emb`. -/
def afterInsert (c : Cliques) (emb : Emb) (n : Nat) : Option (List (Nat × List Nat)) := do
  let s ← (insertClique ⟨none, some c⟩ emb true).toOption
  let (_, c') := ensure c ⟨none, s.disk⟩
  answer c' n

/-- After inserting an embedding of two nodes, no clique of three nodes is found. -/
example : answer (make fourCells) 3 = some [(0, [4, 12, 6]), (1, [5, 13, 7]), (2, [8, 10, 14])] ∧ afterInsert (make fourCells) [[0], [2]] 3 = some [] := by decide +kernel

/-- The embeddings that the search stores for the damaged Zephyr graph. -/
def tearCliques : List Emb := [[], [[25], [26], [10], [8]], [[8, 25], [10, 26]], [[8, 9, 25], [10, 26], [13, 29], [14, 30, 31]], [[4, 5, 20], [8, 9, 24, 25], [10, 26], [13, 28, 29], [14, 30, 31]], []]

/-- An embedding of the clique of 6 nodes into it with chains of at most 3 qubits. -/
def tearBetter : Emb := [[8], [25], [26, 27], [9, 29, 14], [10, 30, 31], [21, 12, 13]]

theorem isChain_one {nodes : List Nat} {edges : List (Nat × Nat)} {p : Nat} (h : p ∈ nodes) : IsChain nodes edges [p] := by
  refine ⟨by simp, fun q hq => by rw [List.mem_singleton.mp hq]; exact h, ?_⟩
  intro a ha b hb
  rw [List.mem_singleton.mp ha, List.mem_singleton.mp hb]

theorem isChain_path {nodes : List Nat} {edges : List (Nat × Nat)} : ∀ {c : List Nat}, c ≠ [] → (∀ q ∈ c, q ∈ nodes) → c.IsChain (Coupler edges) → IsChain nodes edges c
  | [], h, _, _ => absurd rfl h
  | [p], _, hq, _ => isChain_one (hq p (by simp))
  | p :: q :: c, _, hq, hc => by
    rw [List.isChain_cons_cons] at hc
    have h1 : IsChain nodes edges [p] := isChain_one (hq p (by simp))
    have h2 : IsChain nodes edges (q :: c) := isChain_path (by simp) (fun a ha => hq a (List.mem_cons_of_mem _ ha)) hc.2
    exact Bus.isChain_append h1 h2 ⟨p, by simp, q, by simp, hc.1⟩

instance (edges : List (Nat × Nat)) (p q : Nat) : Decidable (Coupler edges p q) := inferInstanceAs (Decidable (_ ∨ _))

instance (edges : List (Nat × Nat)) (c d : List Nat) : Decidable (Adjacent edges c d) := inferInstanceAs (Decidable (∃ p ∈ c, ∃ q ∈ d, _))

theorem clique_of_paths {nodes : List Nat} {edges : List (Nat × Nat)} {emb : List (List Nat)} (h : ∀ c ∈ emb, c ≠ [] ∧ (∀ q ∈ c, q ∈ nodes) ∧ c.IsChain (Coupler edges))
    (hd : emb.Pairwise fun c d => ∀ q ∈ c, q ∉ d) (ha : emb.Pairwise (Adjacent edges)) : CliqueEmbedding nodes edges emb :=
  ⟨fun c hc => isChain_path (h c hc).1 (h c hc).2.1 (h c hc).2.2, hd, ha⟩

/-- The cache after the insertion. -/
def tearAfter : Cliques :=
  ⟨[[], [[25], [26], [10], [8]], [[4, 5, 20], [8, 9, 24, 25], [10, 26], [13, 28, 29], [14, 30, 31]], tearBetter, [[8], [25], [26, 27]], []],
   [(0, 0), (1, 1), (2, 1), (3, 1), (4, 1), (5, 2), (6, 3)], [(0, 0), (1, 1), (2, 4), (3, 3), (4, 2), (5, 5)]⟩

theorem of_toOption {ε α : Type} {m : Except ε α} {a : α} (h : m.toOption = some a) : m = .ok a := by
  cases m with
  | ok b => simp only [Except.toOption] at h; cases h; rfl
  | error e => cases h

/-- C37 is false for caches that were computed: their chains are not sorted by length, and the comparison looks at one chain only. Here an embedding of 6 nodes with chains
of at most 3 qubits is inserted, but the clique of 5 nodes still gets a chain of 4 qubits. -/
theorem C37_quality_lost : ∃ c', Bus.bestCliques (.zephyr 2 1) 64 revDraws revDraws tearNodes tearEdges = .ok tearCliques ∧ Lattice.WFGraph (.zephyr 2 1) tearNodes tearEdges ∧
    CliqueEmbedding tearNodes tearEdges tearBetter ∧ (∀ c ∈ tearBetter, c.length ≤ 3) ∧ insertClique ⟨some (make tearCliques), none⟩ tearBetter true = .ok ⟨some c', some c'⟩ ∧
    Offers c' 6 3 ∧ ¬ Offers c' 5 3 := by
  refine ⟨tearAfter, of_toOption (by decide +kernel), tear_wf, clique_of_paths (by decide +kernel) (by decide +kernel) (by decide +kernel), by decide, of_toOption (by decide +kernel),
    ⟨3, tearBetter, by decide, by decide, by decide, by decide⟩, ?_⟩
  · rintro ⟨k, e, h1, h2, h3, h4⟩
    have : dget tearAfter.size 5 = some 2 := by decide
    rw [this] at h1; cases h1
    have : tearAfter.raw[2]? = some [[4, 5, 20], [8, 9, 24, 25], [10, 26], [13, 28, 29], [14, 30, 31]] := by decide
    rw [this] at h2; cases h2
    have := h4 [8, 9, 24, 25] (by decide)
    simp at this

/-- C61, the part that holds: for a chain length with an entry, the entry, which is a valid embedding with chains of at most that length; else nothing.
What is missing: it need not be the largest one known for that length. -/
theorem C61_length_partial {T : Bus.Topo} {nodes : List Nat} {edges : List (Nat × Nat)} (hG : Lattice.WFGraph T nodes edges) {bound : Nat} (hb : 0 < bound) {D D' : Bus.Draws} (hD : D.Perm) (hD' : D'.Perm)
    (L : Nat) : ∃ r res, Bus.bestCliques T bound D D' nodes edges = .ok r ∧ largestByLength (make r) L = .ok res ∧ CliqueEmbedding nodes edges res ∧ (∀ c ∈ res, c.length ≤ L) ∧
      (0 < L ∧ L < r.length → r[L]? = some res) ∧ (¬ (0 < L ∧ L < r.length) → res = []) := by
  obtain ⟨l, r, h1, h2, h3, h4, ⟨e1, h5, _⟩, h6⟩ := Bus.bestCliques_ok hG hb hD hD'
  have h := make_ok r
  have hempty : CliqueEmbedding nodes edges [] := ⟨by simp, .nil, .nil⟩
  obtain ⟨m1, m2⟩ := maxKey_ok (d := (make r).length)
  have hmem : ∀ n, n ∈ (make r).length.map Prod.fst ↔ n < r.length := by
    intro n
    rw [← dget_isSome, Option.isSome_iff_exists]
    constructor
    · rintro ⟨k, hk⟩; exact ((h.length n k).mp hk).2
    · intro hn; exact ⟨n, (h.length n n).mpr ⟨rfl, hn⟩⟩
  cases hk : maxKey (make r).length with
  | none =>
    have := (hmem 1).mpr (List.getElem?_eq_some_iff.mp h5).1
    rw [m1.mp hk] at this; cases this
  | some k =>
    obtain ⟨k1, k2⟩ := m2 k hk
    have hkr : k < r.length := (hmem k).mp k1
    have hlast : r.length - 1 ≤ k := k2 _ ((hmem _).mpr (by omega))
    by_cases hL : 0 < L ∧ L ≤ k
    · have hLr : L < r.length := by omega
      have hget := List.getElem?_eq_getElem hLr
      refine ⟨r, r[L], h3, ?_, (h4 L _ hget).clique, (h4 L _ hget).le, fun _ => hget, fun hn => absurd ⟨hL.1, hLr⟩ hn⟩
      simp only [largestByLength, hk, if_pos hL, (h.length L L).mpr ⟨rfl, hLr⟩, rawAt, h.raw, hget]
    · refine ⟨r, [], h3, ?_, hempty, by simp, fun hn => absurd ⟨hn.1, by omega⟩ hL, fun _ => rfl⟩
      simp only [largestByLength, hk, if_neg hL]

/-- C61 is false: in a Chimera graph of four cells with one qubit on each side, two nodes need chains of one qubit only, but for chains of at most two qubits a single chain is given,
and for chains of at most four qubits none. -/
theorem C61_not_largest : ∃ r, Bus.bestCliques (.chimera 2 2 1) 64 revDraws revDraws (List.range 8) (chimeraEdges 2 2 1) = .ok r ∧ largestByLength (make r) 1 = .ok [[0], [1]] ∧
    largestByLength (make r) 2 = .ok [[0, 1]] ∧ largestByLength (make r) 3 = .ok [[0, 4, 1], [6, 5, 7]] ∧ largestByLength (make r) 4 = .ok [] :=
  ⟨[[], [[0], [1]], [[0, 1]], [[0, 4, 1], [6, 5, 7]]], of_toOption (by decide +kernel), of_toOption (by decide +kernel), of_toOption (by decide +kernel), of_toOption (by decide +kernel),
    of_toOption (by decide +kernel)⟩

/-- The longest chains have length `n`. -/
def Longest (e : Emb) (n : Nat) : Prop := (∀ c ∈ e, c.length ≤ n) ∧ ∃ c ∈ e, c.length = n

theorem longest_unique {e : Emb} {n m : Nat} (hn : Longest e n) (hm : Longest e m) : n = m := by
  obtain ⟨c, hc, rfl⟩ := hn.2
  obtain ⟨d, hd, rfl⟩ := hm.2
  exact Nat.le_antisymm (hm.1 c hc) (hn.1 d hd)

theorem longest_perm {e e' : Emb} {n : Nat} (h : e.Perm e') : Longest e n ↔ Longest e' n := by
  simp only [Longest, h.mem_iff]

theorem longest_sortLen {x : Emb} (hx : x ≠ []) : Longest x (lastLength (sortLen x)) := by
  rw [← longest_perm (sortLen_perm x)]
  have hne : sortLen x ≠ [] := fun h => hx (List.length_eq_zero_iff.mp (by rw [← sortLen_length, h]; rfl))
  have hlast := List.getLast?_eq_some_getLast hne
  have hs := sortLen_sorted x
  have hd := List.dropLast_append_getLast hne
  simp only [lastLength, hlast]
  refine ⟨fun c hc => ?_, _, List.getLast_mem hne, rfl⟩
  rw [← hd] at hs hc
  rcases List.mem_append.mp hc with hc | hc
  · exact (List.pairwise_append.mp hs).2.2 c hc _ (List.mem_singleton.mpr rfl)
  · rw [List.mem_singleton.mp hc]

/-- What the table of lengths says after importing `xs`. -/
structure Lengths (c : Cliques) (xs : List Emb) : Prop where
  entry : ∀ n k, dget c.length n = some k → ∃ e, c.raw[k]? = some e ∧ (0 < n → Longest e n ∧ ∃ x ∈ xs, e.Perm x)
  largest : ∀ x ∈ xs, ∀ n, Longest x n → ∃ k e, dget c.length n = some k ∧ c.raw[k]? = some e ∧ x.length ≤ e.length

theorem lengths_insert {c : Cliques} {xs : List Emb} (h : Lengths c xs) (x : Emb) : ∃ c', insertDirect c x = .ok c' ∧ Lengths c' (xs ++ [x]) := by
  have hraw : ∀ {k : Nat} {e : Emb}, c.raw[k]? = some e → (c.raw ++ [sortLen x])[k]? = some e := by
    intro k e he
    rw [List.getElem?_append_left (List.getElem?_eq_some_iff.mp he).1]; exact he
  have hnew : (c.raw ++ [sortLen x])[c.raw.length]? = some (sortLen x) := by simp
  have hx : 0 < lastLength (sortLen x) → Longest x (lastLength (sortLen x)) := by
    intro hp
    refine longest_sortLen ?_
    rintro rfl
    exact absurd hp (by decide)
  have hunique : ∀ n, Longest x n → n = lastLength (sortLen x) := by
    intro n hn
    refine longest_unique hn (longest_sortLen ?_)
    rintro rfl
    obtain ⟨c, hc, _⟩ := hn.2
    cases hc
  have hold : ∀ n k, dget c.length n = some k → ∃ e, (c.raw ++ [sortLen x])[k]? = some e ∧ (0 < n → Longest e n ∧ ∃ y ∈ xs ++ [x], e.Perm y) := by
    intro n k hk
    obtain ⟨e, h1, h2⟩ := h.entry n k hk
    refine ⟨e, hraw h1, fun hn => ?_⟩
    obtain ⟨h3, y, h4, h5⟩ := h2 hn
    exact ⟨h3, y, List.mem_append_left _ h4, h5⟩
  have hset : ∀ n k, dget (dset c.length (lastLength (sortLen x)) c.raw.length) n = some k → ∃ e, (c.raw ++ [sortLen x])[k]? = some e ∧ (0 < n → Longest e n ∧ ∃ y ∈ xs ++ [x], e.Perm y) := by
    intro n k hk
    rw [dget_dset] at hk
    split at hk
    · rename_i e; cases hk; subst e
      exact ⟨sortLen x, hnew, fun hp => ⟨(longest_perm (sortLen_perm x)).mpr (hx hp), x, List.mem_append_right _ (List.mem_singleton.mpr rfl), sortLen_perm x⟩⟩
    · exact hold n k hk
  simp only [insertDirect]
  cases hl : dget c.length (lastLength (sortLen x)) with
  | none =>
    refine ⟨_, rfl, hset, ?_⟩
    intro y hy n hn
    simp only
    rcases List.mem_append.mp hy with hy | hy
    · obtain ⟨k, e, h1, h2, h3⟩ := h.largest y hy n hn
      refine ⟨k, e, ?_, hraw h2, h3⟩
      rw [dget_dset, if_neg]
      · exact h1
      · rintro rfl; rw [hl] at h1; cases h1
    · rw [List.mem_singleton] at hy; subst hy
      refine ⟨c.raw.length, sortLen y, ?_, hnew, by rw [sortLen_length]⟩
      rw [dget_dset, if_pos (hunique n hn).symm]
  | some j =>
    obtain ⟨o, ho, _⟩ := h.entry _ _ hl
    simp only [hraw ho]
    refine ⟨_, rfl, ?_, ?_⟩
    · intro n k hk
      simp only at hk
      split at hk
      · exact hset n k hk
      · exact hold n k hk
    · intro y hy n hn
      simp only
      split
      · rename_i hlt
        rcases List.mem_append.mp hy with hy | hy
        · obtain ⟨k, e, h1, h2, h3⟩ := h.largest y hy n hn
          by_cases hnl : lastLength (sortLen x) = n
          · subst hnl
            rw [hl] at h1; cases h1
            rw [ho] at h2; cases h2
            exact ⟨c.raw.length, sortLen x, by rw [dget_dset, if_pos rfl], hnew, by omega⟩
          · exact ⟨k, e, by rw [dget_dset, if_neg hnl]; exact h1, hraw h2, h3⟩
        · rw [List.mem_singleton] at hy; subst hy
          exact ⟨c.raw.length, sortLen y, by rw [dget_dset, if_pos (hunique n hn).symm], hnew, by rw [sortLen_length]⟩
      · rename_i hlt
        rcases List.mem_append.mp hy with hy | hy
        · obtain ⟨k, e, h1, h2, h3⟩ := h.largest y hy n hn
          exact ⟨k, e, h1, hraw h2, h3⟩
        · rw [List.mem_singleton] at hy; subst hy
          rw [sortLen_length] at hlt
          exact ⟨j, o, by rw [hunique n hn]; exact hl, hraw ho, by omega⟩

theorem lengths_all {c : Cliques} {ys xs : List Emb} (h : Lengths c ys) : ∃ c', xs.foldlM insertDirect c = .ok c' ∧ Lengths c' (ys ++ xs) := by
  induction xs generalizing c ys with
  | nil => exact ⟨c, rfl, by rw [List.append_nil]; exact h⟩
  | cons x xs ih =>
    obtain ⟨c1, a1, a2⟩ := lengths_insert h x
    obtain ⟨c2, b1, b2⟩ := ih a2
    exact ⟨c2, by rw [List.foldlM_cons, a1]; exact b1, by rw [List.append_assoc] at b2; exact b2⟩

theorem lengths_blank : Lengths blank [] := by
  refine ⟨fun n k hk => ?_, by simp⟩
  have : blank.length = [(0, 0)] := by decide
  rw [this] at hk
  have hn : n ∈ [((0 : Nat), (0 : Nat))].map Prod.fst := dget_isSome.mp (by rw [hk]; rfl)
  simp only [List.map_cons, List.map_nil, List.mem_singleton] at hn
  subst hn
  have : dget [((0 : Nat), (0 : Nat))] 0 = some 0 := by decide
  rw [this] at hk; cases hk
  exact ⟨[], by decide, fun h => absurd h (by decide)⟩

/-- C61, after an import: for a length that some imported embedding needs, the answer is an imported one that needs just that length, and no imported one that needs it is larger. -/
theorem C61_imported {embs : List Emb} (disk : Option Cliques) (write : Bool) {x : Emb} (hx : x ∈ embs) {L : Nat} (hL : 0 < L) (hlong : Longest x L) :
    ∃ c res, update ⟨none, disk⟩ embs write = .ok ⟨some c, if write then some c else disk⟩ ∧ largestByLength c L = .ok res ∧ Longest res L ∧ (∃ y ∈ embs, res.Perm y) ∧
      ∀ y ∈ embs, Longest y L → y.length ≤ res.length := by
  obtain ⟨c, h1, h2⟩ := lengths_all (xs := embs) lengths_blank
  rw [List.nil_append] at h2
  obtain ⟨k, e, h3, h4, h5⟩ := h2.largest x hx L hlong
  obtain ⟨e', h6, h7⟩ := h2.entry L k h3
  rw [h4] at h6; cases h6
  obtain ⟨h8, h9⟩ := h7 hL
  refine ⟨c, e, ?_, ?_, h8, h9, fun y hy hyl => ?_⟩
  · simp only [update, ensureBlank, h1]; rfl
  · have hm : L ∈ c.length.map Prod.fst := dget_isSome.mp (by rw [h3]; rfl)
    obtain ⟨m1, m2⟩ := maxKey_ok (d := c.length)
    cases hk : maxKey c.length with
    | none => rw [m1.mp hk] at hm; cases hm
    | some m => simp only [largestByLength, hk, if_pos (And.intro hL ((m2 m hk).2 L hm)), h3, rawAt, h4]
  · obtain ⟨k', e', g1, g2, g3⟩ := h2.largest y hy L hyl
    rw [h3] at g1; cases g1
    rw [h4] at g2; cases g2
    exact g3

example : Longest [[5, 6, 7], [1]] 3 ∧ Longest [[1], [2], [3, 4, 0]] 3 ∧
    (update ⟨none, none⟩ [[[5, 6, 7], [1]], [[1], [2], [3, 4, 0]], [[8]]] true).toOption.bind (fun s => s.mem.bind fun c => (largestByLength c 3).toOption) = some [[1], [2], [3, 4, 0]] := by
  refine ⟨⟨by decide, by decide⟩, ⟨by decide, by decide⟩, by decide +kernel⟩

/-- C61 after an import: for a length below the largest that no imported embedding needs just, the query raises `KeyError`. -/
theorem C61_key_error : ∃ c, update ⟨none, none⟩ [[[8]], [[1], [2], [3, 4, 0]]] true = .ok ⟨some c, some c⟩ ∧ largestByLength c 3 = .ok [[1], [2], [3, 4, 0]] ∧ largestByLength c 2 = .error .key :=
  ⟨⟨[[], [[8]], [[1], [2], [3, 4, 0]]], [(0, 0), (1, 1), (3, 2)], [(0, 0), (1, 1), (3, 2)]⟩, by decide +kernel, by decide +kernel, by decide +kernel⟩

/-- C36, keeping what was computed: after the first query the same object, and a new one that finds what the first wrote to disk, answer from the same cache, whatever a further search would compute. -/
theorem C36_kept (computed other : Cliques) (s : Store) :
    (ensure other (ensure computed s).1).2 = (ensure computed s).2 ∧ (s.mem = none → (ensure other ⟨none, (ensure computed s).1.disk⟩).2 = (ensure computed s).2) ∧
      (s = ⟨none, none⟩ → (ensure computed s).2 = computed) ∧ (∀ c, s = ⟨none, some c⟩ → (ensure computed s).2 = c) := by
  obtain ⟨mem, disk⟩ := s
  cases mem <;> cases disk <;> simp [ensure]

example : (ensure (make [[]]) ⟨none, (ensure (make [[], [[1], [2]]]) ⟨none, none⟩).1.disk⟩).2 = make [[], [[1], [2]]] := by decide

end MM
