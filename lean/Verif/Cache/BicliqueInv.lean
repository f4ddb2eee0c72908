import Verif.Cache.Biclique
import Verif.Cache.CliqueInv
import Verif.Spec.Clique

/-! What the biclique cache holds and answers. -/

namespace MM
namespace Cache

/-- What the search hands over: for each pair of sides at most one embedding, with as many chains. -/
structure Items (embs : List ((Nat × Nat) × Emb)) : Prop where
  nodup : (embs.map Prod.fst).Nodup
  sides : ∀ p ∈ embs, 0 < p.1.1 ∧ 0 < p.1.2 ∧ p.2.length = p.1.1 + p.1.2

theorem dset_new {κ β : Type} [DecidableEq κ] {d : Dict κ β} {k : κ} (v : β) (h : k ∉ d.map Prod.fst) : dset d k v = d ++ [(k, v)] := by
  induction d with
  | nil => rfl
  | cons p d ih =>
    obtain ⟨a, b⟩ := p
    rw [List.map_cons, List.mem_cons, not_or] at h
    simp only [dset, if_neg (Ne.symm h.1), ih h.2, List.cons_append]

theorem fold_new {β γ : Type} {g : (Nat × Nat) × β → Option γ} : ∀ (l : List ((Nat × Nat) × β)) (d : Dict (Nat × Nat) γ), (l.map Prod.fst).Nodup → (∀ p ∈ l, p.1 ∉ d.map Prod.fst) → (∀ p ∈ l, (g p).isSome) →
    ∃ d', l.foldl (fun d p => addItem (g p) d p.1) d = d ++ d' ∧ List.Forall₂ (fun p q => q.1 = p.1 ∧ g p = some q.2) l d' := by
  intro l
  induction l with
  | nil => intro d _ _ _; exact ⟨[], by simp, .nil⟩
  | cons p l ih =>
    intro d h1 h2 h3
    rw [List.map_cons, List.nodup_cons] at h1
    obtain ⟨v, hv⟩ := Option.isSome_iff_exists.mp (h3 p List.mem_cons_self)
    have hd := dset_new v (h2 p List.mem_cons_self)
    obtain ⟨d', e1, e2⟩ := ih (dset d p.1 v) h1.2 (by
      intro q hq hm
      rcases mem_keys_dset.mp hm with h | h
      · exact h1.1 (h ▸ List.mem_map.mpr ⟨q, hq, rfl⟩)
      · exact h2 q (List.mem_cons_of_mem _ hq) h) fun q hq => h3 q (List.mem_cons_of_mem _ hq)
    refine ⟨(p.1, v) :: d', ?_, .cons ⟨rfl, hv⟩ e2⟩
    rw [List.foldl_cons]
    rw [hv, addItem, e1, hd, List.append_assoc]; rfl

theorem Items.ne {embs : List ((Nat × Nat) × Emb)} (h : Items embs) {p : (Nat × Nat) × Emb} (hp : p ∈ embs) : p.2 ≠ [] := by
  obtain ⟨a, b, c⟩ := h.sides p hp
  intro e
  rw [e, List.length_nil] at c
  omega

theorem rawOf_eq {embs : List ((Nat × Nat) × Emb)} (h : Items embs) : rawOf embs = embs := by
  obtain ⟨d', e1, e2⟩ := fold_new (g := fun p : (Nat × Nat) × Emb => filled p.2) embs [] h.nodup (by simp) (fun p hp => by simp [filled, h.ne hp])
  rw [rawOf, e1, List.nil_append]
  have : List.Forall₂ Eq embs d' := by
    refine List.Forall₂.imp ?_ e2
    rintro p q ⟨h1, h2⟩
    simp only [filled] at h2
    split at h2
    · cases h2
    · exact Prod.ext h1.symm (Option.some.inj h2)
  exact (List.forall₂_eq_eq_eq ▸ this : embs = d').symm

/-- The longest and the shortest length that are stored for a key. -/
theorem lengthsOf_ok {embs : List ((Nat × Nat) × Emb)} (h : Items embs) {p : (Nat × Nat) × Emb} (hp : p ∈ embs) : ∃ a b, dget (lengthsOf embs) p.1 = some (a, b) ∧ longest p.2 = some a := by
  have hex : ∀ e : Emb, e ≠ [] → ∃ a b, longest e = some a ∧ shortest e = some b := by
    intro e he
    cases e with
    | nil => exact absurd rfl he
    | cons c e => exact ⟨_, _, rfl, rfl⟩
  obtain ⟨d', e1, e2⟩ := fold_new (g := fun p : (Nat × Nat) × Emb => lengthPair p.2) embs [] h.nodup (by simp) (fun p hp => by
    obtain ⟨a, b, h1, h2⟩ := hex p.2 (h.ne hp)
    simp [lengthPair, h1, h2])
  have heq : lengthsOf embs = d' := by
    rw [lengthsOf, e1, List.nil_append]
  have hkeys : d'.map Prod.fst = embs.map Prod.fst := by
    clear heq e1 hp
    induction e2 with
    | nil => rfl
    | cons h1 _ ih =>
      rename_i p q l1 l2 _
      rw [List.map_cons, List.map_cons, h1.1, ih ⟨(List.nodup_cons.mp h.nodup).2, fun r hr => h.sides r (List.mem_cons_of_mem _ hr)⟩]
  have hfind : ∃ q ∈ d', q.1 = p.1 ∧ ∃ a b, q.2 = (a, b) ∧ longest p.2 = some a := by
    clear heq e1 hkeys
    induction e2 with
    | nil => cases hp
    | cons h1 _ ih =>
      rename_i p' q l1 l2 _
      rcases List.mem_cons.mp hp with rfl | hp
      · refine ⟨q, List.mem_cons_self, h1.1, ?_⟩
        obtain ⟨a, b, g1, g2⟩ := hex p.2 (h.ne List.mem_cons_self)
        have := h1.2
        simp only [lengthPair, g1, g2, Option.some.injEq] at this
        exact ⟨a, b, this.symm, g1⟩
      · obtain ⟨r, hr, h2⟩ := ih ⟨(List.nodup_cons.mp h.nodup).2, fun r hr => h.sides r (List.mem_cons_of_mem _ hr)⟩ hp
        exact ⟨r, List.mem_cons_of_mem _ hr, h2⟩
  obtain ⟨⟨k, v⟩, hq, he, a, b, hv, hl⟩ := hfind
  simp only at he hv
  subst he hv
  exact ⟨a, b, by rw [heq]; exact dget_of_mem (by rw [hkeys]; exact h.nodup) hq, hl⟩

/-- The index when the keys of `done` have been looked at. -/
structure SizeOk (cl : Dict (Nat × Nat) (Nat × Nat)) (done : List (Nat × Nat)) (size : Dict Nat (Dict Nat (Nat × Nat))) : Prop where
  nodup : (size.map Prod.fst).Nodup
  rows : ∀ (hi : Nat) row, dget size hi = some row → row ≠ []
  sound : ∀ (hi lo : Nat) row key, dget size hi = some row → dget row lo = some key → key ∈ done ∧ max key.1 key.2 = hi ∧ min key.1 key.2 = lo
  complete : ∀ key ∈ done, ∃ row key', dget size (max key.1 key.2) = some row ∧ dget row (min key.1 key.2) = some key' ∧
    ∃ a b a' b', dget cl key = some (a, b) ∧ dget cl key' = some (a', b') ∧ a' ≤ a

theorem dset_ne_nil {κ β : Type} [DecidableEq κ] (d : Dict κ β) (k : κ) (v : β) : dset d k v ≠ [] := by
  cases d with
  | nil => simp [dset]
  | cons p d =>
    obtain ⟨a, b⟩ := p
    simp only [dset]
    split <;> simp

theorem sizeStep_ok {cl : Dict (Nat × Nat) (Nat × Nat)} {done : List (Nat × Nat)} {size : Dict Nat (Dict Nat (Nat × Nat))} (h : SizeOk cl done size) {key : Nat × Nat} (hk : ∃ a b, dget cl key = some (a, b)) :
    ∃ size', sizeStep cl size key = .ok size' ∧ SizeOk cl (key :: done) size' := by
  obtain ⟨a, b, hk⟩ := hk
  have e0 : (if key.1 < key.2 then key.2 else key.1) = max key.1 key.2 := by split <;> omega
  have e1 : (if key.1 < key.2 then key.1 else key.2) = min key.1 key.2 := by split <;> omega
  simp only [sizeStep, e0, e1]
  have hrow : ∃ row, rowOf size (max key.1 key.2) = row ∧ (∀ lo k, dget row lo = some k → ∃ row', dget size (max key.1 key.2) = some row' ∧ dget row' lo = some k) ∧
      (∀ lo k row', dget size (max key.1 key.2) = some row' → dget row' lo = some k → dget row lo = some k) := by
    cases hd : dget size (max key.1 key.2) with
    | none => exact ⟨[], by simp only [rowOf, hd], fun lo k h => by simp [dget] at h, fun lo k row' h => by cases h⟩
    | some row => exact ⟨row, by simp only [rowOf, hd], fun lo k h => ⟨row, rfl, h⟩, fun lo k row' h h' => by cases h; exact h'⟩
  obtain ⟨row, hr, hr1, hr2⟩ := hrow
  rw [hr]
  -- the index after `key` has been entered
  have hput : (∀ key0, dget row (min key.1 key.2) = some key0 → ∃ a0 b0, dget cl key0 = some (a0, b0) ∧ a ≤ a0) → SizeOk cl (key :: done) (dset size (max key.1 key.2) (dset row (min key.1 key.2) key)) := by
    intro hbest
    refine ⟨nodup_dset h.nodup _ _, fun hi row' hg => ?_, fun hi lo row' k hg hl => ?_, fun k hkd => ?_⟩
    · rw [dget_dset] at hg
      split at hg
      · cases hg; exact dset_ne_nil _ _ _
      · exact h.rows hi row' hg
    · rw [dget_dset] at hg
      split at hg
      · rename_i hhi
        cases hg
        rw [dget_dset] at hl
        split at hl
        · rename_i hlo
          cases hl
          exact ⟨List.mem_cons_self, hhi, hlo⟩
        · obtain ⟨row', g1, g2⟩ := hr1 lo k hl
          rw [hhi] at g1
          obtain ⟨x, y⟩ := h.sound hi lo row' k g1 g2
          exact ⟨List.mem_cons_of_mem _ x, y⟩
      · obtain ⟨x, y⟩ := h.sound hi lo row' k hg hl
        exact ⟨List.mem_cons_of_mem _ x, y⟩
    · rcases List.mem_cons.mp hkd with rfl | hkd
      · exact ⟨_, k, by rw [dget_dset, if_pos rfl], by rw [dget_dset, if_pos rfl], a, b, a, b, hk, hk, Nat.le_refl _⟩
      · obtain ⟨row', key', g1, g2, a1, b1, a2, b2, g3, g4, g5⟩ := h.complete k hkd
        by_cases hhi : max key.1 key.2 = max k.1 k.2
        · rw [← hhi] at g1 ⊢
          by_cases hlo : min key.1 key.2 = min k.1 k.2
          · rw [← hlo] at g2 ⊢
            have hb := hr2 _ _ _ g1 g2
            obtain ⟨a0, b0, c1, c2⟩ := hbest key' hb
            rw [g4] at c1
            cases c1
            exact ⟨_, key, by rw [dget_dset, if_pos rfl], by rw [dget_dset, if_pos rfl], a1, b1, a, b, g3, hk, Nat.le_trans c2 g5⟩
          · have hb := hr2 _ _ _ g1 g2
            exact ⟨_, key', by rw [dget_dset, if_pos rfl], by rw [dget_dset, if_neg hlo]; exact hb, a1, b1, a2, b2, g3, g4, g5⟩
        · exact ⟨row', key', by rw [dget_dset, if_neg hhi]; exact g1, g2, a1, b1, a2, b2, g3, g4, g5⟩
  cases hd : dget row (min key.1 key.2) with
  | none => exact ⟨_, rfl, hput fun key0 h0 => by rw [hd] at h0; cases h0⟩
  | some key0 =>
    obtain ⟨row', g1, g2⟩ := hr1 _ _ hd
    obtain ⟨c1, c2, c3⟩ := h.sound _ _ _ _ g1 g2
    obtain ⟨_, _, _, _, a0, b0, _, _, d1, _, _⟩ := h.complete key0 c1
    have hsame : a0 ≤ a → SizeOk cl (key :: done) size := by
      intro hle
      refine ⟨h.nodup, h.rows, fun hi lo row k x y => ?_, fun k hkd => ?_⟩
      · obtain ⟨p, q⟩ := h.sound hi lo row k x y
        exact ⟨List.mem_cons_of_mem _ p, q⟩
      · rcases List.mem_cons.mp hkd with rfl | hkd
        · exact ⟨row', key0, g1, g2, a, b, a0, b0, hk, d1, hle⟩
        · exact h.complete k hkd
    by_cases he : key0 = key
    · subst he
      rw [hk] at d1
      cases d1
      refine ⟨size, ?_, hsame (Nat.le_refl _)⟩
      simp only [keepKey, if_true, bind, Except.bind]; rfl
    · simp only [keepKey, if_neg he, dat, d1, hk, bind, Except.bind, pure, Except.pure]
      by_cases hc : a0 < a ∨ a0 = a ∧ b0 ≤ b
      · exact ⟨size, by rw [decide_eq_true hc]; rfl, hsame (by omega)⟩
      · refine ⟨_, by rw [decide_eq_false hc]; rfl, hput fun k hk0 => ?_⟩
        rw [hd] at hk0
        cases hk0
        exact ⟨a0, b0, d1, by omega⟩

theorem maxStep_ok : ∀ (l : List Nat) (o : Option Nat), (o = none → l ≠ []) → ∃ m, l.foldl maxStep o = some m ∧ (m ∈ l ∨ o = some m) ∧ (∀ x ∈ l, x ≤ m) ∧ ∀ x, o = some x → x ≤ m := by
  intro l
  induction l with
  | nil =>
    intro o h
    cases o with
    | none => exact absurd rfl (h rfl)
    | some m => exact ⟨m, rfl, .inr rfl, by simp, fun x hx => by cases hx; exact Nat.le_refl _⟩
  | cons a l ih =>
    intro o _
    rw [List.foldl_cons]
    have hs : ∃ b, maxStep o a = some b ∧ (b = a ∨ o = some b) ∧ a ≤ b ∧ ∀ x, o = some x → x ≤ b := by
      cases o with
      | none => exact ⟨a, rfl, .inl rfl, Nat.le_refl _, by simp⟩
      | some c =>
        refine ⟨max c a, rfl, ?_, by omega, fun x hx => by cases hx; omega⟩
        rcases Nat.le_total c a with h | h
        · exact .inl (by omega)
        · exact .inr (by rw [Nat.max_eq_left h])
    obtain ⟨b, h1, h2, h3, h4⟩ := hs
    rw [h1]
    obtain ⟨m, g1, g2, g3, g4⟩ := ih (some b) (by simp)
    have hbm := g4 b rfl
    refine ⟨m, g1, ?_, fun x hx => ?_, fun x hx => Nat.le_trans (h4 x hx) hbm⟩
    · rcases g2 with g2 | g2
      · exact .inl (List.mem_cons_of_mem _ g2)
      · cases g2
        rcases h2 with h2 | h2
        · exact .inl (h2 ▸ List.mem_cons_self)
        · exact .inr h2
    · rcases List.mem_cons.mp hx with rfl | hx
      · omega
      · exact g3 x hx

theorem maxKeyOf_ok {β : Type} {d : Dict Nat β} (h : d ≠ []) : ∃ m, maxKeyOf d = .ok m ∧ m ∈ d.map Prod.fst ∧ ∀ x ∈ d.map Prod.fst, x ≤ m := by
  obtain ⟨m, h1, h2, h3, _⟩ := maxStep_ok (d.map Prod.fst) none (fun _ => by simpa using h)
  refine ⟨m, by simp only [maxKeyOf, h1], ?_, h3⟩
  rcases h2 with h2 | h2
  · exact h2
  · cases h2

/-- What the cache holds. -/
structure BicliquesOk (embs : List ((Nat × Nat) × Emb)) (c : Bicliques) : Prop where
  raw : c.raw = embs
  size : ∃ cl, SizeOk cl (embs.map Prod.fst) c.size ∧ ∀ p ∈ embs, ∃ a b, dget cl p.1 = some (a, b) ∧ longest p.2 = some a
  top : ∀ p ∈ embs, max p.1.1 p.1.2 ≤ c.top
  maxSide : ∀ (hi : Nat) row, dget c.size hi = some row → ∃ m, dget c.maxSide hi = some m ∧ ∀ lo key, dget row lo = some key → lo ≤ m

theorem makeBicliques_ok {embs : List ((Nat × Nat) × Emb)} (h : Items embs) (hne : embs ≠ []) : ∃ c, makeBicliques embs = .ok c ∧ BicliquesOk embs c := by
  have hcl : ∀ key ∈ embs.map Prod.fst, ∃ a b, dget (lengthsOf embs) key = some (a, b) := by
    intro key hk
    obtain ⟨p, hp, rfl⟩ := List.mem_map.mp hk
    obtain ⟨a, b, h1, _⟩ := lengthsOf_ok h hp
    exact ⟨a, b, h1⟩
  have key : ∀ (l : List (Nat × Nat)), (∀ k ∈ l, ∃ a b, dget (lengthsOf embs) k = some (a, b)) → ∀ (done : List (Nat × Nat)) size, SizeOk (lengthsOf embs) done size →
      ∃ size', l.foldlM (sizeStep (lengthsOf embs)) size = .ok size' ∧ SizeOk (lengthsOf embs) (l.reverse ++ done) size' := by
    intro l
    induction l with
    | nil => intro _ done size hs; exact ⟨size, rfl, hs⟩
    | cons k l ih =>
      intro hl done size hs
      obtain ⟨s1, e1, o1⟩ := sizeStep_ok hs (hl k List.mem_cons_self)
      obtain ⟨s2, e2, o2⟩ := ih (fun k hk => hl k (List.mem_cons_of_mem _ hk)) _ _ o1
      refine ⟨s2, ?_, by rw [List.reverse_cons, List.append_assoc]; exact o2⟩
      rw [List.foldlM_cons]
      simp only [e1, bind, Except.bind]
      exact e2
  obtain ⟨size, s1, s2⟩ := key (embs.map Prod.fst) hcl [] [] ⟨.nil, by simp [dget], by simp [dget], by simp⟩
  rw [List.append_nil] at s2
  have s3 : SizeOk (lengthsOf embs) (embs.map Prod.fst) size :=
    ⟨s2.nodup, s2.rows, fun hi lo row k x y => by
      obtain ⟨p, q⟩ := s2.sound hi lo row k x y
      exact ⟨List.mem_reverse.mp p, q⟩, fun k hk => s2.complete k (List.mem_reverse.mpr hk)⟩
  have hsne : size ≠ [] := by
    obtain ⟨p, hp⟩ := List.exists_mem_of_ne_nil _ hne
    obtain ⟨row, _, g, _⟩ := s3.complete p.1 (List.mem_map.mpr ⟨p, hp, rfl⟩)
    rintro rfl
    simp [dget] at g
  obtain ⟨top, t1, t2, t3⟩ := maxKeyOf_ok hsne
  have hms : ∀ (l : Dict Nat (Dict Nat (Nat × Nat))), (l.map Prod.fst).Nodup → (∀ p ∈ l, p.2 ≠ []) → ∀ d0 : Dict Nat Nat, ∃ d, l.foldlM (fun d p => do
      let m ← maxKeyOf p.2
      pure (dset d p.1 m)) d0 = .ok d ∧ (∀ k, k ∉ l.map Prod.fst → dget d k = dget d0 k) ∧ ∀ p ∈ l, ∃ m, dget d p.1 = some m ∧ ∀ x ∈ p.2.map Prod.fst, x ≤ m := by
    intro l
    induction l with
    | nil => intro _ _ d0; exact ⟨d0, rfl, fun _ _ => rfl, by simp⟩
    | cons p l ih =>
      intro hn hr d0
      rw [List.map_cons, List.nodup_cons] at hn
      obtain ⟨m, m1, m2, m3⟩ := maxKeyOf_ok (hr p List.mem_cons_self)
      obtain ⟨d, d1, d2, d3⟩ := ih hn.2 (fun q hq => hr q (List.mem_cons_of_mem _ hq)) (dset d0 p.1 m)
      refine ⟨d, ?_, fun k hk => ?_, fun q hq => ?_⟩
      · rw [List.foldlM_cons]
        simp only [m1, bind, Except.bind]
        exact d1
      · rw [List.map_cons, List.mem_cons, not_or] at hk
        rw [d2 k hk.2, dget_dset, if_neg (fun e => hk.1 e.symm)]
      · rcases List.mem_cons.mp hq with rfl | hq
        · exact ⟨m, by rw [d2 _ hn.1, dget_dset, if_pos rfl], m3⟩
        · exact d3 q hq
  obtain ⟨ms, f1, _, f3⟩ := hms size s3.nodup (fun p hp => s3.rows p.1 p.2 (dget_of_mem s3.nodup hp)) []
  refine ⟨⟨embs, size, top, ms⟩, ?_, rfl, ⟨lengthsOf embs, s3, fun p hp => lengthsOf_ok h hp⟩, fun p hp => ?_, fun hi row hg => ?_⟩
  · simp only [makeBicliques, rawOf_eq h, s1, t1, bind, Except.bind]
    simp only [bind, Except.bind] at f1
    rw [f1]; rfl
  · obtain ⟨row, _, g, _⟩ := s3.complete p.1 (List.mem_map.mpr ⟨p, hp, rfl⟩)
    exact t3 _ (dget_isSome.mp (by rw [g]; rfl))
  · obtain ⟨m, m1, m2⟩ := f3 (hi, row) (mem_of_dget hg)
    exact ⟨m, m1, fun lo key hl => m2 lo (dget_isSome.mp (by rw [hl]; rfl))⟩

/-- What the two loops of `find_biclique_embedding` come to. -/
theorem find_key {embs : List ((Nat × Nat) × Emb)} {c : Bicliques} (h : BicliquesOk embs c) {n m : Nat} (hnm : n ≤ m) :
    (∀ key, keyFor c n m = some key → key ∈ embs.map Prod.fst ∧ m ≤ key.1 ∧ m ≤ key.2) ∧ (keyFor c n m = none → ∀ p ∈ embs, ¬ (m ≤ p.1.1 ∧ m ≤ p.1.2)) := by
  obtain ⟨cl, hs, _⟩ := h.size
  constructor
  · intro key hf
    obtain ⟨i, hi, hg⟩ := List.exists_of_findSome?_eq_some hf
    split at hg
    · cases hg
    · obtain ⟨j, hj, hk⟩ := List.exists_of_findSome?_eq_some hg
      cases hrow : dget c.size i with
      | none => simp [rowOf, hrow, dget] at hk
      | some row =>
        simp only [rowOf, hrow] at hk
        obtain ⟨g1, g2, g3⟩ := hs.sound i j row key hrow hk
        rw [List.mem_range'_1] at hj
        exact ⟨g1, by omega, by omega⟩
  · rintro hf p hp ⟨h1, h2⟩
    obtain ⟨row, key', g1, g2, _⟩ := hs.complete p.1 (List.mem_map.mpr ⟨p, hp, rfl⟩)
    obtain ⟨mm, m1, m2⟩ := h.maxSide _ _ g1
    have := m2 _ _ g2
    have ht := h.top p hp
    have hnone := List.findSome?_eq_none_iff.mp hf (max p.1.1 p.1.2) (List.mem_range'_1.mpr (by omega))
    simp only [sideMax, rowOf, m1, g1] at hnone
    rw [if_neg (by omega)] at hnone
    have := List.findSome?_eq_none_iff.mp hnone (min p.1.1 p.1.2) (List.mem_range'_1.mpr (by omega))
    rw [g2] at this
    cases this

open Spec

theorem BicliqueEmbedding.symm {nodes : List Nat} {edges : List (Nat × Nat)} {A B : Emb} (h : BicliqueEmbedding nodes edges A B) : BicliqueEmbedding nodes edges B A := by
  refine ⟨fun c hc => h.chains c (by rw [List.mem_append] at hc ⊢; tauto), ?_, fun c hc d hd => ?_⟩
  · have := h.disjoint
    rw [List.pairwise_append] at this ⊢
    exact ⟨this.2.1, this.1, fun c hc d hd q hq hq' => this.2.2 d hd c hc q hq' hq⟩
  · obtain ⟨p, hp, q, hq, hpq⟩ := h.adjacent d hd c hc
    exact ⟨q, hq, p, hp, Or.symm hpq⟩

theorem BicliqueEmbedding.sub {nodes : List Nat} {edges : List (Nat × Nat)} {A B A' B' : Emb} (h : BicliqueEmbedding nodes edges A B) (hA : A'.Sublist A) (hB : B'.Sublist B) : BicliqueEmbedding nodes edges A' B' :=
  ⟨fun c hc => h.chains c ((hA.append hB).subset hc), h.disjoint.sublist (hA.append hB), fun c hc d hd => h.adjacent c (hA.subset hc) d (hB.subset hd)⟩

theorem BicliqueEmbedding.perm {nodes : List Nat} {edges : List (Nat × Nat)} {A B A' B' : Emb} (h : BicliqueEmbedding nodes edges A B) (hA : A'.Perm A) (hB : B'.Perm B) : BicliqueEmbedding nodes edges A' B' :=
  ⟨fun c hc => h.chains c ((hA.append hB).subset hc), h.disjoint.perm (hA.append hB).symm (fun h q hq hq' => h q hq' hq), fun c hc d hd => h.adjacent c (hA.subset hc) d (hB.subset hd)⟩

theorem zip_cut {α β : Type} (N M : List α) (X Y : List β) (hX : N.length ≤ X.length) : (N ++ M).zip (X.take N.length ++ Y) = N.zip (X.take N.length) ++ M.zip Y := by
  rw [List.zip_append]
  simp [hX]

theorem zip_take_right {α β : Type} (M : List α) (Y : List β) : M.zip Y = M.zip (Y.take M.length) := by
  induction M generalizing Y with
  | nil => simp
  | cons a M ih =>
    cases Y with
    | nil => simp
    | cons b Y => simp [ih Y]

/-- The answer for a key with both sides large enough. -/
theorem answer_ok {α : Type} {nodes : List Nat} {edges : List (Nat × Nat)} {N M : List α} {key : Nat × Nat} {emb : Emb} (hl : emb.length = key.1 + key.2) (hb : BicliqueEmbedding nodes edges (emb.take key.1) (emb.drop key.1))
    (hnm : N.length ≤ M.length) (h1 : M.length ≤ key.1) (h2 : M.length ≤ key.2) :
    ∃ A B, A.length = N.length ∧ B.length = M.length ∧ BicliqueEmbedding nodes edges A B ∧ answerBiclique N M key emb = N.zip A ++ M.zip B ∧ ∀ c ∈ A ++ B, c ∈ emb := by
  have l1 : (emb.take key.1).length = key.1 := by rw [List.length_take]; omega
  have l2 : (emb.drop key.1).length = key.2 := by rw [List.length_drop]; omega
  simp only [answerBiclique]
  split
  · refine ⟨(emb.take key.1).take N.length, (emb.drop key.1).take M.length, by rw [List.length_take]; omega, by rw [List.length_take]; omega, BicliqueEmbedding.sub hb (List.take_sublist _ _) (List.take_sublist _ _), ?_, ?_⟩
    · rw [zip_cut _ _ _ _ (by omega), ← zip_take_right M]
    · intro c hc
      rcases List.mem_append.mp hc with hc | hc
      · exact List.mem_of_mem_take (List.mem_of_mem_take hc)
      · exact List.mem_of_mem_drop (List.mem_of_mem_take hc)
  · refine ⟨(emb.drop key.1).take N.length, (emb.take key.1).take M.length, by rw [List.length_take]; omega, by rw [List.length_take]; omega, BicliqueEmbedding.sub (BicliqueEmbedding.symm hb) (List.take_sublist _ _) (List.take_sublist _ _), ?_, ?_⟩
    · rw [zip_cut _ _ _ _ (by omega), ← zip_take_right M]
    · intro c hc
      rcases List.mem_append.mp hc with hc | hc
      · exact List.mem_of_mem_drop (List.mem_of_mem_take hc)
      · exact List.mem_of_mem_take (List.mem_of_mem_take hc)

end Cache
end MM
