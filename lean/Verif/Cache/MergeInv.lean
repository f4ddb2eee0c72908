import Verif.Cache.CliqueInv
import Mathlib.Data.List.Dedup

/-! Import and merging of clique caches. -/

namespace MM
namespace Cache

/-- A cache whose indices are in range: an entry for size `n` has at least `n` chains. -/
structure Sound (c : Cliques) : Prop where
  size : ∀ n k, dget c.size n = some k → ∃ e, c.raw[k]? = some e ∧ n ≤ e.length
  length : ∀ n k, dget c.length n = some k → ∃ e, c.raw[k]? = some e
  nodup : (c.size.map Prod.fst).Nodup

theorem Indexed.sound {embs : List Emb} {c : Cliques} (h : Indexed embs c) : Sound c := by
  refine ⟨fun n k hk => ?_, fun n k hk => ?_, h.nodup⟩
  · rw [h.raw]; exact ((h.size n k).mp hk).1
  · obtain ⟨rfl, hn⟩ := (h.length n k).mp hk
    rw [h.raw]; exact ⟨_, List.getElem?_eq_getElem hn⟩

theorem sortLen_perm (e : Emb) : (sortLen e).Perm e := List.perm_insertionSort _ _

theorem sortLen_length (e : Emb) : (sortLen e).length = e.length := (sortLen_perm e).length_eq

theorem sortLen_sorted (e : Emb) : (sortLen e).Pairwise fun c d => c.length ≤ d.length :=
  List.pairwise_insertionSort (r := fun c d : List Nat => c.length ≤ d.length) _

theorem insertDirect_ok {c : Cliques} (h : Sound c) (x : Emb) :
    ∃ c', insertDirect c x = .ok c' ∧ Sound c' ∧ c'.raw = c.raw ++ [sortLen x] ∧ c'.size = dset c.size x.length c.raw.length := by
  have hraw : ∀ {k : Nat} {e : Emb}, c.raw[k]? = some e → (c.raw ++ [sortLen x])[k]? = some e := by
    intro k e he
    rw [List.getElem?_append_left (List.getElem?_eq_some_iff.mp he).1]; exact he
  have hsize : ∀ n k, dget (dset c.size x.length c.raw.length) n = some k → ∃ e, (c.raw ++ [sortLen x])[k]? = some e ∧ n ≤ e.length := by
    intro n k hk
    rw [dget_dset] at hk
    split at hk
    · rename_i e; cases hk; subst e
      exact ⟨sortLen x, by simp, by rw [sortLen_length]⟩
    · obtain ⟨e, h1, h2⟩ := h.size n k hk
      exact ⟨e, hraw h1, h2⟩
  have hlen : ∀ n k, dget (dset c.length (lastLength (sortLen x)) c.raw.length) n = some k → ∃ e, (c.raw ++ [sortLen x])[k]? = some e := by
    intro n k hk
    rw [dget_dset] at hk
    split at hk
    · cases hk; exact ⟨sortLen x, by simp⟩
    · obtain ⟨e, h1⟩ := h.length n k hk
      exact ⟨e, hraw h1⟩
  simp only [insertDirect, sortLen_length]
  cases hl : dget c.length (lastLength (sortLen x)) with
  | none => exact ⟨_, rfl, ⟨hsize, hlen, nodup_dset h.nodup _ _⟩, rfl, rfl⟩
  | some k =>
    obtain ⟨e, he⟩ := h.length _ _ hl
    simp only [hraw he]
    refine ⟨_, rfl, ⟨hsize, ?_, nodup_dset h.nodup _ _⟩, rfl, rfl⟩
    intro n j hj
    simp only at hj
    split at hj
    · exact hlen n j hj
    · obtain ⟨e, h1⟩ := h.length n j hj
      exact ⟨e, hraw h1⟩

/-- Inserting embeddings of different sizes directly. -/
theorem insertAll_ok {L : List Emb} (hL : L.Pairwise fun a b => a.length ≠ b.length) {c : Cliques} (h : Sound c) :
    ∃ c', L.foldlM insertDirect c = .ok c' ∧ Sound c' ∧ (∀ (k : Nat) e, c.raw[k]? = some e → c'.raw[k]? = some e) ∧
      (∀ x ∈ L, ∃ k, dget c'.size x.length = some k ∧ c'.raw[k]? = some (sortLen x)) ∧ ∀ n, (∀ x ∈ L, x.length ≠ n) → dget c'.size n = dget c.size n := by
  induction L generalizing c with
  | nil => exact ⟨c, rfl, h, fun k e h => h, by simp, fun _ _ => rfl⟩
  | cons x L ih =>
    rw [List.pairwise_cons] at hL
    obtain ⟨c1, a1, a2, a3, a4⟩ := insertDirect_ok h x
    obtain ⟨c2, b1, b2, b3, b4, b5⟩ := ih hL.2 a2
    refine ⟨c2, by rw [List.foldlM_cons, a1]; exact b1, b2, ?_, ?_, ?_⟩
    · intro k e he
      refine b3 k e ?_
      rw [a3, List.getElem?_append_left (List.getElem?_eq_some_iff.mp he).1]; exact he
    · intro y hy
      rcases List.mem_cons.mp hy with rfl | hy
      · refine ⟨c.raw.length, ?_, b3 _ _ (by rw [a3]; simp)⟩
        rw [b5 _ (fun z hz => (hL.1 z hz).symm), a4, dget_dset, if_pos rfl]
      · exact b4 y hy
    · intro n hn
      rw [b5 n (fun z hz => hn z (List.mem_cons_of_mem _ hz)), a4, dget_dset, if_neg (hn x List.mem_cons_self)]

/-- `used`: new keys number the pairs in order. -/
structure UsedOk (used : Used) : Prop where
  value : ∀ (j : Nat) p, used[j]? = some p → p.2 = j
  nodup : (used.map Prod.fst).Nodup

theorem useKey_ok {used : Used} (h : UsedOk used) (k : Nat × Bool) :
    UsedOk (useKey used k).1 ∧ (useKey used k).1[(useKey used k).2]? = some (k, (useKey used k).2) ∧ (∀ (j : Nat) p, used[j]? = some p → (useKey used k).1[j]? = some p) ∧
      ∀ p ∈ (useKey used k).1, p ∈ used ∨ p.1 = k := by
  simp only [useKey]
  cases hd : dget used k with
  | some v =>
    simp only
    refine ⟨h, ?_, fun j p hp => hp, fun p hp => .inl hp⟩
    obtain ⟨j, hj, hje⟩ := List.getElem_of_mem (mem_of_dget hd)
    have hj' : used[j]? = some (k, v) := by rw [List.getElem?_eq_getElem hj, hje]
    have := h.value j _ hj'
    simp only at this
    rw [this]; exact this ▸ hj'
  | none =>
    simp only
    refine ⟨⟨?_, ?_⟩, by simp, ?_, ?_⟩
    · intro j p hp
      by_cases hj : j < used.length
      · rw [List.getElem?_append_left hj] at hp; exact h.value j p hp
      · rw [List.getElem?_append_right (by omega)] at hp
        have : j - used.length = 0 := by
          by_contra hc
          rw [List.getElem?_eq_none (by simp; omega)] at hp
          cases hp
        rw [this] at hp
        cases hp
        simp only; omega
    · rw [List.map_append, List.nodup_append]
      refine ⟨h.nodup, by simp, ?_⟩
      rintro a ha b hb rfl
      simp only [List.map_cons, List.map_nil, List.mem_singleton] at hb
      subst hb
      have := dget_isSome.mpr ha
      rw [hd] at this
      cases this
    · intro j p hp
      rw [List.getElem?_append_left (List.getElem?_eq_some_iff.mp hp).1]; exact hp
    · intro p hp
      rcases List.mem_append.mp hp with hp | hp
      · exact .inl hp
      · rw [List.mem_singleton] at hp; subst hp; exact .inr rfl

theorem pickLoop_ok {pick : Nat → Except Err (Nat × Bool)} {V : Nat × Bool → Prop} {is : List Nat} (hp : ∀ i ∈ is, ∃ k, pick i = .ok k ∧ V k) {used : Used} {d : Dict Nat Nat} (h : UsedOk used) (hV : ∀ p ∈ used, V p.1)
    (hd : ∀ i v, dget d i = some v → ∃ k, pick i = .ok k ∧ used[v]? = some (k, v)) (hn : (d.map Prod.fst).Nodup) :
    ∃ used' d', pickLoop pick is used d = .ok (used', d') ∧ UsedOk used' ∧ (∀ p ∈ used', V p.1) ∧ (∀ (j : Nat) p, used[j]? = some p → used'[j]? = some p) ∧
      (∀ i v, dget d' i = some v → ∃ k, pick i = .ok k ∧ used'[v]? = some (k, v)) ∧ (∀ i, (dget d' i).isSome ↔ (dget d i).isSome ∨ i ∈ is) ∧ (d'.map Prod.fst).Nodup := by
  induction is generalizing used d with
  | nil => exact ⟨used, d, rfl, h, hV, fun _ _ h => h, hd, by simp, hn⟩
  | cons i is ih =>
    obtain ⟨k, hk, hVk⟩ := hp i List.mem_cons_self
    obtain ⟨u1, u2, u3, u4⟩ := useKey_ok h k
    obtain ⟨used', d', a1, a2, a3, a4, a5, a6, a7⟩ := ih (fun i hi => hp i (List.mem_cons_of_mem _ hi)) (used := (useKey used k).1) (d := dset d i (useKey used k).2) u1
      (fun p hp => by
        rcases u4 p hp with h | h
        · exact hV p h
        · rw [h]; exact hVk)
      (fun j v hj => by
        rw [dget_dset] at hj
        split at hj
        · rename_i e; cases hj; subst e; exact ⟨k, hk, u2⟩
        · obtain ⟨k', b1, b2⟩ := hd j v hj
          exact ⟨k', b1, u3 _ _ b2⟩) (nodup_dset hn _ _)
    refine ⟨used', d', by simp only [pickLoop, hk, bind, Except.bind]; exact a1, a2, a3, fun j p hp => a4 j p (u3 j p hp), a5, ?_, a7⟩
    intro j
    rw [a6, dget_dset]
    by_cases hij : i = j
    · subst hij; simp
    · rw [if_neg hij, List.mem_cons]
      constructor
      · rintro (h | h)
        · exact .inl h
        · exact .inr (.inr h)
      · rintro (h | h | h)
        · exact .inl h
        · exact absurd h.symm hij
        · exact .inr h

theorem mem_unionKeys {a b : Dict Nat Nat} {n : Nat} : n ∈ unionKeys a b ↔ (dget a n).isSome ∨ (dget b n).isSome := by
  rw [unionKeys, (List.perm_insertionSort _ _).mem_iff, List.mem_dedup, List.mem_append, dget_isSome, dget_isSome]

/-- `merge_clique_cache`: where the entries of the new cache come from. -/
theorem mergeWith_ok {c0 c1 : Cliques} (h0 : Sound c0) (h1 : Sound c1) {pick : Nat → Except Err (Nat × Bool)}
    (hpick : ∀ i, (dget c0.size i).isSome ∨ (dget c1.size i).isSome → ∃ k : Nat × Bool, pick i = .ok k ∧ dget (if k.2 then c1 else c0).size i = some k.1) :
    ∃ c, mergeWith pick c0 c1 = .ok c ∧ Sound c ∧ (∀ n, (dget c.size n).isSome ↔ (dget c0.size n).isSome ∨ (dget c1.size n).isSome) ∧
      (∀ n v, dget c.size n = some v → ∃ k, pick n = .ok k ∧ c.raw[v]? = (if k.2 then c1 else c0).raw[k.1]?) ∧ ∀ e ∈ c.raw, e ∈ c0.raw ∨ e ∈ c1.raw := by
  have hat : ∀ {c : Cliques} {k : Nat} {e : Emb}, c.raw[k]? = some e → rawAt c k = .ok e := by
    intro c k e he
    simp only [rawAt, he]
  have hp : ∀ i ∈ unionKeys c0.size c1.size, ∃ k : Nat × Bool, pick i = .ok k ∧ ∃ e, (if k.2 then c1 else c0).raw[k.1]? = some e := by
    intro i hi
    rw [mem_unionKeys] at hi
    obtain ⟨k, k1, k2⟩ := hpick i hi
    refine ⟨k, k1, ?_⟩
    cases hk : k.2 with
    | true => rw [hk] at k2; obtain ⟨e, he, _⟩ := h1.size i k.1 k2; exact ⟨e, he⟩
    | false => rw [hk] at k2; obtain ⟨e, he, _⟩ := h0.size i k.1 k2; exact ⟨e, he⟩
  have hq : ∀ i ∈ unionKeys c0.length c1.length, ∃ k : Nat × Bool, pickLength c0 c1 i = .ok k ∧ ∃ e, (if k.2 then c1 else c0).raw[k.1]? = some e := by
    intro i hi
    rw [mem_unionKeys] at hi
    simp only [pickLength]
    cases e0 : dget c0.length i with
    | none =>
      cases e1 : dget c1.length i with
      | none => rw [e0, e1] at hi; simp at hi
      | some k1 =>
        obtain ⟨e, he⟩ := h1.length i k1 e1
        exact ⟨(k1, true), rfl, e, he⟩
    | some k0 =>
      obtain ⟨x0, g0⟩ := h0.length i k0 e0
      cases e1 : dget c1.length i with
      | none => exact ⟨(k0, false), rfl, x0, g0⟩
      | some k1 =>
        obtain ⟨x1, g1⟩ := h1.length i k1 e1
        simp only [hat g0, hat g1, bind, Except.bind]
        split
        · exact ⟨(k0, false), rfl, x0, g0⟩
        · exact ⟨(k1, true), rfl, x1, g1⟩
  obtain ⟨u1, size, a1, a2, a3, a4, a5, a6, a7⟩ := pickLoop_ok hp (used := []) (d := []) ⟨by simp, by simp⟩ (by simp) (by simp [dget]) (by simp)
  obtain ⟨u2, length, b1, b2, b3, b4, b5, b6, b7⟩ := pickLoop_ok hq (used := u1) (d := []) a2 a3 (by simp [dget]) (by simp)
  have hraw : ∀ (used : Used), (∀ p ∈ used, ∃ e, (if p.1.2 then c1 else c0).raw[p.1.1]? = some e) →
      ∃ raw, used.mapM (fun p => rawAt (if p.1.2 then c1 else c0) p.1.1) = .ok raw ∧ ∀ (j : Nat), raw[j]? = used[j]?.bind fun p => (if p.1.2 then c1 else c0).raw[p.1.1]? := by
    intro used
    induction used with
    | nil => intro _; exact ⟨[], rfl, by simp⟩
    | cons p used ih =>
      intro hu
      obtain ⟨raw, r1, r2⟩ := ih fun p hp => hu p (List.mem_cons_of_mem _ hp)
      obtain ⟨e, he⟩ := hu p List.mem_cons_self
      refine ⟨e :: raw, ?_, ?_⟩
      · simp only [List.mapM_cons, hat he, r1, bind, Except.bind, pure, Except.pure]
      · intro j
        cases j with
        | zero => simp [he]
        | succ j => simp [r2]
  obtain ⟨raw, r1, r2⟩ := hraw u2 b3
  have hsz : ∀ n v, dget size n = some v → ∃ k, pick n = .ok k ∧ raw[v]? = (if k.2 then c1 else c0).raw[k.1]? := by
    intro n v hv
    obtain ⟨k, k1, k2⟩ := a5 n v hv
    exact ⟨k, k1, by rw [r2, b4 _ _ k2]; rfl⟩
  refine ⟨⟨raw, size, length⟩, ?_, ⟨?_, ?_, a7⟩, ?_, hsz, ?_⟩
  · simp only [mergeWith, a1, b1, r1, bind, Except.bind, pure, Except.pure]
  · intro n v hv
    obtain ⟨k, k1, k2⟩ := hsz n v hv
    have hn : n ∈ unionKeys c0.size c1.size := by
      have := (a6 n).mp (by rw [hv]; rfl)
      simpa [dget] using this
    have hk : dget (if k.2 then c1 else c0).size n = some k.1 := by
      obtain ⟨k', g1, g2⟩ := hpick n (mem_unionKeys.mp hn)
      rw [k1] at g1; cases g1
      exact g2
    simp only
    rw [k2]
    cases hk2 : k.2 with
    | true => rw [hk2] at hk; exact h1.size n k.1 hk
    | false => rw [hk2] at hk; exact h0.size n k.1 hk
  · intro n v hv
    obtain ⟨k, k1, k2⟩ := b5 n v hv
    obtain ⟨e, he⟩ := b3 _ (List.mem_of_getElem? k2)
    exact ⟨e, by simp only; rw [r2, k2]; exact he⟩
  · intro n
    simp only
    rw [a6, mem_unionKeys]; simp [dget]
  · intro e he
    obtain ⟨j, hj, hje⟩ := List.getElem_of_mem he
    have hj' : raw[j]? = some e := by rw [List.getElem?_eq_getElem hj, hje]
    rw [r2] at hj'
    cases hu : u2[j]? with
    | none => rw [hu] at hj'; cases hj'
    | some p =>
      rw [hu] at hj'
      have hj' : (if p.1.2 then c1 else c0).raw[p.1.1]? = some e := hj'
      cases hb : p.1.2 with
      | true => rw [hb] at hj'; exact .inr (List.mem_of_getElem? hj')
      | false => rw [hb] at hj'; exact .inl (List.mem_of_getElem? hj')

theorem pickSize_ok {c0 c1 : Cliques} (h0 : Sound c0) (h1 : Sound c1) (i : Nat) (hi : (dget c0.size i).isSome ∨ (dget c1.size i).isSome) :
    ∃ k : Nat × Bool, pickSize c0 c1 i = .ok k ∧ dget (if k.2 then c1 else c0).size i = some k.1 := by
  have hat : ∀ {c : Cliques} {k : Nat} {e : Emb}, c.raw[k]? = some e → rawAt c k = .ok e := by
    intro c k e he
    simp only [rawAt, he]
  simp only [pickSize]
  cases e0 : dget c0.size i with
  | none =>
    cases e1 : dget c1.size i with
    | none => rw [e0, e1] at hi; simp at hi
    | some k1 => exact ⟨(k1, true), rfl, e1⟩
  | some k0 =>
    obtain ⟨x0, g0, l0⟩ := h0.size i k0 e0
    cases e1 : dget c1.size i with
    | none => exact ⟨(k0, false), rfl, e0⟩
    | some k1 =>
      obtain ⟨x1, g1, l1⟩ := h1.size i k1 e1
      simp only
      split
      · exact ⟨(k1, true), rfl, e1⟩
      · rename_i hi0
        have a0 : chainAt c0 k0 i = .ok (x0[i - 1]'(by omega)).length := by
          simp only [chainAt, hat g0, bind, Except.bind, List.getElem?_eq_getElem (show i - 1 < x0.length by omega)]
        have a1 : chainAt c1 k1 i = .ok (x1[i - 1]'(by omega)).length := by
          simp only [chainAt, hat g1, bind, Except.bind, List.getElem?_eq_getElem (show i - 1 < x1.length by omega)]
        simp only [a0, a1, bind, Except.bind]
        split
        · exact ⟨(k0, false), rfl, e0⟩
        · exact ⟨(k1, true), rfl, e1⟩

theorem merge_ok {c0 c1 : Cliques} (h0 : Sound c0) (h1 : Sound c1) :
    ∃ c, merge c0 c1 = .ok c ∧ Sound c ∧ (∀ n, (dget c.size n).isSome ↔ (dget c0.size n).isSome ∨ (dget c1.size n).isSome) ∧
      (∀ n v, dget c.size n = some v → ∃ k, pickSize c0 c1 n = .ok k ∧ c.raw[v]? = (if k.2 then c1 else c0).raw[k.1]?) ∧ ∀ e ∈ c.raw, e ∈ c0.raw ∨ e ∈ c1.raw :=
  mergeWith_ok h0 h1 (pickSize_ok h0 h1)

end Cache
end MM
