import Verif.Graph.Param
import Verif.Graph.CompInv
import Verif.Core.RunPass

/-! What `parameter_processor` computes. -/

namespace MM
namespace Input

/-- A variable with a fixed chain. -/
def FixV (I : Input) (v : Nat) : Prop := ∃ kv ∈ I.fixedC, kv.1 = (v : Int)

/-- A qubit of a fixed chain. -/
def ResQ (I : Input) (q : Nat) : Prop := ∃ kv ∈ I.fixedC, (q : Int) ∈ kv.2

/-! ### `_reserved` -/

theorem index_spec {n : Nat} {x : Int} (h1 : 0 ≤ x) (h2 : x < (n : Int)) :
    index n x = .ok x.toNat := by
  unfold index; rw [if_pos ⟨h1, h2⟩]

theorem reserved_spec {I : Input}
    (h : ∀ kv ∈ I.fixedC, (0 ≤ kv.1 ∧ kv.1 < (I.src.n : Int)) ∧ ∀ q ∈ kv.2, 0 ≤ q ∧ q < (I.tgt.n : Int)) :
    Ok I.reserved (fun r => (∀ v, r.1 v = true ↔ I.FixV v) ∧ ∀ q, r.2 q = true ↔ I.ResQ q) := by
  unfold reserved
  refine (Ok.foldlM (I := fun done (s : (Nat → Bool) × (Nat → Bool)) =>
    (∀ v : Nat, s.1 v = true ↔ ∃ kv : Int × List Int, kv ∈ done ∧ kv.1 = (v : Int)) ∧
    ∀ q : Nat, s.2 q = true ↔ ∃ kv : Int × List Int, kv ∈ done ∧ (q : Int) ∈ kv.2) ?_ ?_).mono (fun r hr => hr)
  · simp
  · rintro done kv ⟨fx, rq⟩ hkv _ ⟨h1, h2⟩
    obtain ⟨hk, hq⟩ := h kv hkv
    rw [index_spec hk.1 hk.2]
    refine Ok.bind (Ok.pure (Q := fun v => v = kv.1.toNat) rfl) ?_
    rintro _ rfl
    refine Ok.bind (Ok.foldlM (I := fun qs (s : Nat → Bool) =>
      ∀ q, s q = true ↔ rq q = true ∨ (q : Int) ∈ qs) ?_ ?_) ?_
    · simp
    · intro qs x s hx _ hs
      have hx' := hq x hx
      rw [index_spec hx'.1 hx'.2]
      refine Ok.bind (Ok.pure (Q := fun v => v = x.toNat) rfl) ?_
      rintro _ rfl
      refine Ok.pure ?_
      intro q
      by_cases hqx : q = x.toNat
      · subst hqx
        have : ((x.toNat : Nat) : Int) = x := Int.toNat_of_nonneg hx'.1
        simp [this]
      · have : (q : Int) ≠ x := by omega
        rw [upd_ne _ _ hqx, hs]; simp [this]
    · intro rq' hrq
      refine Ok.pure ⟨?_, ?_⟩
      · intro v
        dsimp only
        by_cases hv : v = kv.1.toNat
        · subst hv
          have : kv.1 = ((kv.1.toNat : Nat) : Int) := (Int.toNat_of_nonneg hk.1).symm
          simp only [upd_same, true_iff]
          exact ⟨kv, by simp, this⟩
        · have : kv.1 ≠ (v : Int) := by omega
          rw [upd_ne _ _ hv, h1]
          simp [this]
      · intro q
        dsimp only at h2 ⊢
        rw [hrq, h2]
        simp only [List.mem_append, List.mem_singleton]
        constructor
        · rintro (⟨e, he, hm⟩ | hm)
          · exact ⟨e, Or.inl he, hm⟩
          · exact ⟨kv, Or.inr rfl, hm⟩
        · rintro ⟨e, he | rfl, hm⟩
          · exact Or.inl ⟨e, he, hm⟩
          · exact Or.inr hm

/-! ### renumbering of variables -/

theorem cnt_eq_filter (p : Nat → Bool) (n : Nat) : cnt p n = ((List.range n).filter p).length := by
  induction n with
  | zero => rfl
  | succ n ih =>
    rw [List.range_succ, List.filter_append, List.length_append, cnt, ih]
    by_cases h : p n <;> simp [h]

theorem cnt_fixed {I : Input} {fx : Nat → Bool} (hfx : ∀ v, fx v = true ↔ I.FixV v)
    (hn : (I.fixedC.map Prod.fst).Nodup)
    (hr : ∀ kv ∈ I.fixedC, 0 ≤ kv.1 ∧ kv.1 < (I.src.n : Int)) :
    cnt fx I.src.n = I.fixedC.length := by
  rw [cnt_eq_filter]
  have h1 : ((List.range I.src.n).filter fx).Nodup := List.nodup_range.sublist List.filter_sublist
  have h2 : ((I.fixedC.map Prod.fst).map Int.toNat).Nodup := by
    rw [List.Nodup, List.pairwise_map] at hn ⊢
    rw [List.pairwise_map]
    refine hn.imp_of_mem ?_
    intro x y hx hy hab hc
    have := hr x hx; have := hr y hy; omega
  have : ((List.range I.src.n).filter fx).Perm ((I.fixedC.map Prod.fst).map Int.toNat) := by
    rw [List.perm_ext_iff_of_nodup h1 h2]
    intro a
    rw [List.mem_filter, List.mem_range, hfx, List.map_map, List.mem_map]
    constructor
    · rintro ⟨_, kv, hkv, he⟩
      exact ⟨kv, hkv, by simp [he]⟩
    · rintro ⟨kv, hkv, rfl⟩
      have := hr kv hkv
      refine ⟨by simp; omega, kv, hkv, ?_⟩
      simp; omega
  rw [this.length_eq]; simp

/-- `un` lists the variables not satisfying `fx` in order, then the others in order. -/
structure Screw (n m : Nat) (fx : Nat → Bool) (un : Nat → Nat) : Prop where
  lt : ∀ j, j < n → un j < n
  fx : ∀ j, j < n → (fx (un j) = true ↔ m ≤ j)
  surj : ∀ x, x < n → ∃ j, j < n ∧ un j = x
  mono : ∀ i j, i < j → j < n → (m ≤ i ∨ j < m) → un i < un j

theorem cnt_mono_le {p : Nat → Bool} {k n : Nat} (h : k ≤ n) : cnt p k ≤ cnt p n := by
  induction h with
  | refl => exact Nat.le_refl _
  | step _ ih => simp only [cnt]; omega

theorem cnt_free (p : Nat → Bool) {k n : Nat} (h : k ≤ n) : k + cnt p n ≤ n + cnt p k := by
  induction h with
  | refl => exact Nat.le_refl _
  | step _ ih => simp only [cnt]; split <;> omega

theorem cnt_le_n (p : Nat → Bool) (n : Nat) : cnt p n ≤ n := by
  induction n with
  | zero => simp [cnt]
  | succ n ih => simp only [cnt]; split <;> omega

theorem filterFixed_spec {n nf : Nat} {fx : Nat → Bool} (hc : cnt fx n = nf) :
    Ok (filterFixed n nf fx) (fun r => Screw n (n - nf) fx r.2.2) := by
  unfold filterFixed
  have hle : nf ≤ n := hc ▸ cnt_le_n fx n
  suffices hs : ∀ k, k ≤ n → Ok ((List.range k).foldlM (init := (0, n - nf, (fun _ => 0 : Nat → Nat)))
      fun (x : Nat × Nat × (Nat → Nat)) i => match x with
      | (front, back, un) =>
        if fx i then
          if back < n then (.ok (front, back + 1, upd un back i) : M _) else .error .ub
        else
          if front < n then .ok (front + 1, back, upd un front i) else .error .ub)
      (fun r => r.1 + cnt fx k = k ∧ r.2.1 = n - nf + cnt fx k ∧
        (∀ j, (j < r.1 ∨ n - nf ≤ j ∧ j < r.2.1) → r.2.2 j < k) ∧
        (∀ j, (j < r.1 ∨ n - nf ≤ j ∧ j < r.2.1) → (fx (r.2.2 j) = true ↔ n - nf ≤ j)) ∧
        (∀ x, x < k → ∃ j, (j < r.1 ∨ n - nf ≤ j ∧ j < r.2.1) ∧ r.2.2 j = x) ∧
        (∀ i j, i < j → (j < r.1 ∨ n - nf ≤ i ∧ j < r.2.1) → r.2.2 i < r.2.2 j)) by
    refine (hs n (Nat.le_refl _)).mono ?_
    rintro ⟨front, back, un⟩ ⟨h1, h2, h3, h4, h5, h6⟩
    dsimp only at *
    have hf : front = n - nf := by omega
    have hb : back = n := by omega
    subst hf; subst hb
    refine ⟨fun j hj => h3 j (by omega), fun j hj => h4 j (by omega), fun x hx => ?_, ?_⟩
    · obtain ⟨j, hj, e⟩ := h5 x hx
      exact ⟨j, by omega, e⟩
    · intro i j hij hj hm
      exact h6 i j hij (by omega)
  intro k
  induction k with
  | zero =>
    intro _
    refine Ok.pure ⟨by simp [cnt], by simp [cnt], ?_, ?_, ?_, ?_⟩ <;> intros <;> dsimp only at * <;> omega
  | succ k ih =>
    intro hk
    rw [List.range_succ, List.foldlM_append]
    refine Ok.bind (ih (by omega)) ?_
    rintro ⟨front, back, un⟩ ⟨h1, h2, h3, h4, h5, h6⟩
    simp only [List.foldlM_cons, List.foldlM_nil, bind_pure]
    dsimp only at *
    have hmono : cnt fx (k + 1) ≤ cnt fx n := cnt_mono_le hk
    -- number of non-fixed variables
    have hfree : k - cnt fx k ≤ n - nf := by
      have := cnt_free fx (show k ≤ n by omega)
      omega
    by_cases hx : fx k = true
    · have hcs : cnt fx (k + 1) = cnt fx k + 1 := by simp [cnt, hx]
      rw [if_pos hx, if_pos (by omega)]
      have hne : ∀ j, (j < front ∨ n - nf ≤ j ∧ j < back) → j ≠ back := by intro j hj; omega
      refine Ok.pure ⟨by dsimp only; omega, by dsimp only; omega, ?_, ?_, ?_, ?_⟩ <;> dsimp only
      · intro j hj
        by_cases hjb : j = back
        · subst hjb; simp
        · rw [upd_ne _ _ hjb]; have := h3 j (by omega); omega
      · intro j hj
        by_cases hjb : j = back
        · subst hjb; simp [hx]; omega
        · rw [upd_ne _ _ hjb]; exact h4 j (by omega)
      · intro x hxk
        by_cases hxe : x = k
        · subst hxe; exact ⟨back, by omega, by simp⟩
        · obtain ⟨j, hj, e⟩ := h5 x (by omega)
          exact ⟨j, by omega, by rw [upd_ne _ _ (hne j hj)]; exact e⟩
      · intro i j hij hj
        have hib : i ≠ back := by omega
        rw [upd_ne _ _ hib]
        by_cases hjb : j = back
        · subst hjb; rw [upd_same]; exact h3 i (by omega)
        · rw [upd_ne _ _ hjb]; exact h6 i j hij (by omega)
    · have hcs : cnt fx (k + 1) = cnt fx k := by simp [cnt, hx]
      have hfree' := cnt_free fx (show k + 1 ≤ n by omega)
      rw [if_neg hx, if_pos (by omega)]
      have hne : ∀ j, (j < front ∨ n - nf ≤ j ∧ j < back) → j ≠ front := by intro j hj; omega
      refine Ok.pure ⟨by dsimp only; omega, by dsimp only; omega, ?_, ?_, ?_, ?_⟩ <;> dsimp only
      · intro j hj
        by_cases hjb : j = front
        · subst hjb; simp
        · rw [upd_ne _ _ hjb]; have := h3 j (by omega); omega
      · intro j hj
        by_cases hjb : j = front
        · subst hjb; simp [hx]; omega
        · rw [upd_ne _ _ hjb]; exact h4 j (by omega)
      · intro x hxk
        by_cases hxe : x = k
        · subst hxe; exact ⟨front, by omega, by simp⟩
        · obtain ⟨j, hj, e⟩ := h5 x (by omega)
          exact ⟨j, by omega, by rw [upd_ne _ _ (hne j hj)]; exact e⟩
      · intro i j hij hj
        have hib : i ≠ front := by omega
        rw [upd_ne _ _ hib]
        by_cases hjb : j = front
        · subst hjb; rw [upd_same]; exact h3 i (by omega)
        · rw [upd_ne _ _ hjb]; exact h6 i j hij (by omega)

theorem Screw.inj {n m : Nat} {fx : Nat → Bool} {un : Nat → Nat} (h : Screw n m fx un) {i j : Nat}
    (hi : i < n) (hj : j < n) (he : un i = un j) : i = j := by
  have a := h.fx i hi
  have b := h.fx j hj
  rw [he] at a
  have hm : m ≤ i ↔ m ≤ j := a.symm.trans b
  rcases Nat.lt_trichotomy i j with hij | hij | hij
  · have := h.mono i j hij hj (by omega); omega
  · exact hij
  · have := h.mono j i hij hi (by omega); omega

theorem inverse_spec {n : Nat} {f : Nat → Nat}
    (hinj : ∀ i j, i < n → j < n → f i = f j → i = j) {i : Nat} (hi : i < n) :
    inverse n f (f i) = i := by
  unfold inverse
  suffices h : ∀ (l : List Nat) (r : Nat → Nat), (∀ j ∈ l, j < n) → (i ∈ l ∨ r (f i) = i) →
      (l.foldl (init := r) fun r i => upd r (f i) i) (f i) = i by
    exact h _ _ (by simp) (Or.inl (by simpa using hi))
  intro l
  induction l with
  | nil => intro r _ h; simpa using h
  | cons a l ih =>
    intro r hl h
    rw [List.foldl_cons]
    apply ih
    · intro j hj; exact hl j (by simp [hj])
    · by_cases hia : i = a
      · subst hia; right; simp
      · rcases h with h | h
        · left; simpa [hia] using h
        · right
          rw [upd_ne]
          · exact h
          · intro hc; exact hia (hinj i a hi (hl a (by simp)) hc)

/-! ### `input_chains` -/

end Input

theorem Comps.into_spec {C : Comps} {n c : Nat} {l : List Int} {l' : List Nat} :
    C.into n c l = some l' ↔
      (∀ x ∈ l, 0 ≤ x ∧ x < (n : Int) ∧ C.index x.toNat = c) ∧ l' = l.map (fun x => C.label x.toNat) := by
  unfold Comps.into
  suffices h : ∀ (l : List Int) (out : List Nat), (l.foldlM (init := out) fun out x =>
      if (0 : Int) ≤ x ∧ x < (n : Int) then
        if C.index x.toNat = c then some (out ++ [C.label x.toNat]) else none
      else none) = some l' ↔
      (∀ x ∈ l, 0 ≤ x ∧ x < (n : Int) ∧ C.index x.toNat = c) ∧
        l' = out ++ l.map (fun x => C.label x.toNat) by
    simpa using h l []
  intro l
  induction l with
  | nil => intro out; simp [eq_comm]
  | cons x l ih =>
    intro out
    rw [List.foldlM_cons]
    by_cases hx : (0 : Int) ≤ x ∧ x < (n : Int)
    · by_cases hc : C.index x.toNat = c
      · rw [if_pos hx, if_pos hc]
        simp only [Option.bind_eq_bind, Option.bind_some]
        rw [ih]
        simp [hx, hc]
      · rw [if_pos hx, if_neg hc]
        simp [hx, hc]
    · rw [if_neg hx]
      simp only [Option.bind_eq_bind, Option.bind_none, List.mem_cons, forall_eq_or_imp]
      constructor
      · intro h; simp at h
      · rintro ⟨⟨h, _⟩, _⟩; exact absurd ⟨h.1, h.2.1⟩ hx

namespace Input

theorem mem_insertEntry {k : Nat} {l : List Nat} {m : List (Nat × List Nat)} {e : Nat × List Nat} :
    e ∈ insertEntry k l m ↔ e = (k, l) ∨ e ∈ m := by
  induction m with
  | nil => simp [insertEntry]
  | cons a m ih =>
    unfold insertEntry
    split
    · simp
    · simp only [List.mem_cons, ih]; tauto

theorem insertEntry_sorted {k : Nat} {l : List Nat} {m : List (Nat × List Nat)}
    (h : m.Pairwise (fun a b => a.1 < b.1)) (hk : ∀ e ∈ m, e.1 ≠ k) :
    (insertEntry k l m).Pairwise (fun a b => a.1 < b.1) := by
  induction m with
  | nil => simp [insertEntry]
  | cons a m ih =>
    obtain ⟨h1, h2⟩ := List.pairwise_cons.1 h
    unfold insertEntry
    split
    · next hlt =>
      refine List.pairwise_cons.2 ⟨?_, h⟩
      intro e he
      rcases List.mem_cons.1 he with rfl | he
      · exact hlt
      · exact Nat.lt_trans hlt (h1 e he)
    · next hlt =>
      refine List.pairwise_cons.2 ⟨?_, ih h2 (fun e he => hk e (by simp [he]))⟩
      intro e he
      have hak : a.1 ≠ k := hk a (by simp)
      rcases mem_insertEntry.1 he with rfl | he
      · dsimp only; omega
      · exact h1 e he

/-- An entry that `input_chains` accepts: the key is a variable and all qubits lie in the
largest component. -/
def EntryOK (nv nt : Nat) (C : Comps) (kv : Int × List Int) : Prop :=
  (0 ≤ kv.1 ∧ kv.1 < (nv : Int)) ∧ ∀ x ∈ kv.2, 0 ≤ x ∧ x < (nt : Int) ∧ C.index x.toNat = 0

/-- The renumbered map. -/
structure Renum (C : Comps) (screw : Nat → Nat) (m : ChainMap) (out : List (Nat × List Nat)) : Prop where
  mem : ∀ e, e ∈ out ↔ ∃ kv ∈ m, e = (screw kv.1.toNat, kv.2.map (fun x => C.label x.toNat))
  sorted : out.Pairwise (fun a b => a.1 < b.1)

theorem inputChains_ok {nv nt : Nat} {C : Comps} {screw : Nat → Nat} {m : ChainMap}
    (hs : ∀ a b, a < nv → b < nv → screw a = screw b → a = b)
    (hn : (m.map Prod.fst).Nodup) (hm : ∀ kv ∈ m, EntryOK nv nt C kv) :
    Ok (inputChains nv nt C screw m) (Renum C screw m) := by
  unfold inputChains
  refine Ok.foldlM (I := fun done out => Renum C screw done out) ?_ ?_
  · exact ⟨by simp, by simp⟩
  · rintro done ⟨k, l⟩ out hkv ⟨rest, hrest⟩ h
    obtain ⟨h1, h2⟩ := hm (k, l) hkv
    dsimp only at h1 h2 ⊢
    rw [if_pos h1, Comps.into_spec.2 ⟨h2, rfl⟩]
    refine Ok.pure ⟨?_, ?_⟩
    · intro e
      rw [mem_insertEntry, h.mem]
      simp only [List.mem_append, List.mem_singleton]
      constructor
      · rintro (rfl | ⟨kv, hkv, rfl⟩)
        · exact ⟨(k, l), Or.inr rfl, rfl⟩
        · exact ⟨kv, Or.inl hkv, rfl⟩
      · rintro ⟨kv, hkv | rfl, rfl⟩
        · exact Or.inr ⟨kv, hkv, rfl⟩
        · exact Or.inl rfl
    · refine insertEntry_sorted h.sorted ?_
      intro e he hek
      obtain ⟨kv, hkv', rfl⟩ := (h.mem e).1 he
      dsimp only at hek
      have hkm : kv ∈ m := by rw [hrest]; simp [hkv']
      have hb := (hm kv hkm).1
      have := hs kv.1.toNat k.toNat (by omega) (by omega) hek
      have hkk : kv.1 = k := by omega
      rw [hrest, List.map_append, List.map_cons, List.nodup_append] at hn
      exact hn.2.2 kv.1 (List.mem_map.2 ⟨kv, hkv', rfl⟩) k (by simp) hkk

theorem inputChains_bad {nv nt : Nat} {C : Comps} {screw : Nat → Nat} :
    ∀ {m : ChainMap}, (∃ kv ∈ m, ¬ EntryOK nv nt C kv) →
    inputChains nv nt C screw m = .error .corrupt := by
  unfold inputChains
  intro m
  generalize ([] : List (Nat × List Nat)) = out
  induction m generalizing out with
  | nil => rintro ⟨_, h, _⟩; simp at h
  | cons kv m ih =>
    rintro ⟨e, he, hbad⟩
    rw [List.foldlM_cons]
    by_cases h1 : (0 : Int) ≤ kv.1 ∧ kv.1 < (nv : Int)
    · rw [if_pos h1]
      cases h2 : C.into nt 0 kv.2 with
      | none => rfl
      | some l =>
        have h3 := (Comps.into_spec.1 h2).1
        rcases List.mem_cons.1 he with rfl | he
        · exact absurd ⟨h1, h3⟩ hbad
        · exact ih _ ⟨e, he, hbad⟩
    · rw [if_neg h1]; rfl

theorem inputChains_spec {nv nt : Nat} {C : Comps} {screw : Nat → Nat} {m : ChainMap}
    (hs : ∀ a b, a < nv → b < nv → screw a = screw b → a = b) (hn : (m.map Prod.fst).Nodup) :
    (∀ kv ∈ m, EntryOK nv nt C kv) ∧ Ok (inputChains nv nt C screw m) (Renum C screw m) ∨
    (∃ kv ∈ m, ¬ EntryOK nv nt C kv) ∧ inputChains nv nt C screw m = .error .corrupt := by
  by_cases h : ∀ kv ∈ m, EntryOK nv nt C kv
  · exact Or.inl ⟨h, inputChains_ok hs hn h⟩
  · have h' : ∃ kv ∈ m, ¬ EntryOK nv nt C kv := by
      by_contra hc; apply h; intro kv hkv; by_contra hc'; exact hc ⟨kv, hkv, hc'⟩
    exact Or.inr ⟨h', inputChains_bad h'⟩

theorem lookup_iff {m : List (Nat × List Nat)} (h : m.Pairwise (fun a b => a.1 < b.1)) {v : Nat}
    {l : List Nat} : m.lookup v = some l ↔ (v, l) ∈ m := by
  induction m with
  | nil => simp
  | cons a m ih =>
    obtain ⟨h1, h2⟩ := List.pairwise_cons.1 h
    obtain ⟨k, r⟩ := a
    rw [List.lookup_cons]
    by_cases hv : v = k
    · subst hv
      simp only [beq_self_eq_true, if_true, Option.some.injEq, List.mem_cons, Prod.mk.injEq, true_and]
      constructor
      · rintro rfl; exact Or.inl rfl
      · rintro (rfl | hm)
        · rfl
        · have := h1 _ hm; dsimp only at this; omega
    · have : (v == k) = false := by simpa using hv
      rw [this]
      simp only [Bool.false_eq_true, if_false, List.mem_cons, Prod.mk.injEq, hv, false_and, false_or]
      exact ih h2

end Input
end MM
