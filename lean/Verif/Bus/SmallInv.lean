import Verif.Bus.Small
import Verif.Spec.Clique

/-! The direct search for small cliques: what its map holds. -/

namespace MM
namespace Bus

open Spec

theorem mem_setInsert {a b : Nat} {l : List Nat} : b ∈ setInsert a l ↔ b = a ∨ b ∈ l := by
  induction l with
  | nil => simp [setInsert]
  | cons c l ih =>
    unfold setInsert
    split
    · simp
    · split
      · rename_i h; subst h; simp
      · rw [List.mem_cons, ih, List.mem_cons]; tauto

theorem Coupler.symm {edges : List (Nat × Nat)} {p q : Nat} (h : Coupler edges p q) : Coupler edges q p := h.elim .inr .inl

/-- The map holds exactly the edges seen. -/
def Holds (adj : AdjMap) (seen : List (Nat × Nat)) : Prop := ∀ a p, p ∈ adj a ↔ Coupler seen a p

theorem holds_nil : Holds (fun _ => []) [] := by
  intro a p; simp [Coupler]

theorem Holds.add {adj : AdjMap} {seen : List (Nat × Nat)} (h : Holds adj seen) (e : Nat × Nat) : Holds (addEdge adj e) (seen ++ [e]) := by
  intro a p
  obtain ⟨x, y⟩ := e
  have hx : Coupler (seen ++ [(x, y)]) a p ↔ Coupler seen a p ∨ (a = x ∧ p = y) ∨ (a = y ∧ p = x) := by
    simp only [Coupler, List.mem_append, List.mem_singleton, Prod.mk.injEq]; tauto
  rw [hx, ← h a p]
  simp only [addEdge]
  by_cases h1 : a = x <;> by_cases h2 : a = y
  · subst h1; subst h2; simp [mem_setInsert]; tauto
  · subst h1; simp [mem_setInsert, h2]; tauto
  · subst h2; simp [mem_setInsert, h1]; tauto
  · simp [h1, h2]

theorem coupler_mono {l m : List (Nat × Nat)} (h : ∀ e ∈ l, e ∈ m) {p q : Nat} (hc : Coupler l p q) : Coupler m p q := hc.imp (h _) (h _)

/-- A new edge of a graph without loops. -/
theorem coupler_last {seen : List (Nat × Nat)} {e : Nat × Nat} {p q : Nat} (h : Coupler (seen ++ [e]) p q) : Coupler seen p q ∨ (p = e.1 ∧ q = e.2) ∨ (p = e.2 ∧ q = e.1) := by
  obtain ⟨x, y⟩ := e
  simp only [Coupler, List.mem_append, List.mem_singleton, Prod.mk.injEq] at h ⊢
  tauto

/-- No three nodes joined pairwise. -/
def NoTriangle (edges : List (Nat × Nat)) : Prop := ∀ a b c, Coupler edges a b → Coupler edges a c → Coupler edges b c → a ≠ b → a ≠ c → b ≠ c → False

theorem generic3Loop_ok {adj : AdjMap} {seen es : List (Nat × Nat)} (h : Holds adj seen) (hl : ∀ e ∈ seen ++ es, e.1 ≠ e.2) (hn : NoTriangle seen) :
    (∀ emb, generic3Loop adj es = some emb → ∃ a b c, emb = [[a], [b], [c]] ∧ Coupler (seen ++ es) a b ∧ Coupler (seen ++ es) a c ∧ Coupler (seen ++ es) b c ∧ a ≠ b ∧ a ≠ c ∧ b ≠ c) ∧
      (generic3Loop adj es = none → NoTriangle (seen ++ es)) := by
  induction es generalizing adj seen with
  | nil =>
    rw [List.append_nil]
    exact ⟨fun emb he => (by cases he), fun _ => hn⟩
  | cons e es ih =>
    have hne : ∀ p q, Coupler (seen ++ e :: es) p q → p ≠ q := by
      rintro p q (hc | hc)
      · exact hl _ hc
      · exact fun e => hl _ hc e.symm
    have hsub : ∀ f ∈ seen, f ∈ seen ++ e :: es := fun f hf => List.mem_append_left _ hf
    have hab : Coupler (seen ++ e :: es) e.1 e.2 := .inl (by simp)
    simp only [generic3Loop]
    cases hf : (adj e.1).find? (fun p => decide (p ∈ adj e.2)) with
    | some p =>
      refine ⟨fun emb he => ?_, fun he => by cases he⟩
      cases he
      have h1 := coupler_mono hsub ((h _ _).mp (List.mem_of_find?_eq_some hf))
      have h2 := coupler_mono hsub ((h e.2 p).mp (by simpa using List.find?_some hf))
      exact ⟨e.1, e.2, p, rfl, hab, h1, h2, hne _ _ hab, hne _ _ h1, hne _ _ h2⟩
    | none =>
      have hno : ∀ p, Coupler seen e.1 p → ¬ Coupler seen e.2 p := by
        intro p hp hp'
        have := List.find?_eq_none.mp hf p ((h _ _).mpr hp)
        exact this (by simpa using (h _ _).mpr hp')
      have := ih (h.add e) (by rw [List.append_assoc]; exact hl) (by
        intro a b c hab hac hbc n1 n2 n3
        have c1 := coupler_last hab
        have c2 := coupler_last hac
        have c3 := coupler_last hbc
        rcases c1 with c1 | ⟨rfl, rfl⟩ | ⟨rfl, rfl⟩
        · rcases c2 with c2 | ⟨rfl, rfl⟩ | ⟨rfl, rfl⟩
          · rcases c3 with c3 | ⟨rfl, rfl⟩ | ⟨rfl, rfl⟩
            · exact hn a b c c1 c2 c3 n1 n2 n3
            · exact hno a c1.symm c2.symm
            · exact hno a c2.symm c1.symm
          · rcases c3 with c3 | ⟨rfl, _⟩ | ⟨_, e3⟩
            · exact hno b c1 c3.symm
            · exact n1 rfl
            · exact n2 e3.symm
          · rcases c3 with c3 | ⟨_, e3⟩ | ⟨e3, _⟩
            · exact hno b c3.symm c1
            · exact n2 e3.symm
            · exact n1 e3.symm
        · rcases c2 with c2 | ⟨_, e2⟩ | ⟨e2, _⟩
          · rcases c3 with c3 | ⟨e3, _⟩ | ⟨_, e3⟩
            · exact hno c c2 c3
            · exact n1 e3.symm
            · exact n2 e3.symm
          · exact n3 e2.symm
          · exact n1 e2
        · rcases c2 with c2 | ⟨e2, _⟩ | ⟨_, e2⟩
          · rcases c3 with c3 | ⟨_, e3⟩ | ⟨e3, _⟩
            · exact hno c c3 c2
            · exact n2 e3.symm
            · exact n1 e3.symm
          · exact n1 e2
          · exact n3 e2.symm)
      rw [List.append_assoc] at this
      exact this

/-- No four nodes joined pairwise. -/
def NoK4 (edges : List (Nat × Nat)) : Prop := ∀ a b c d, Coupler edges a b → Coupler edges a c → Coupler edges a d → Coupler edges b c → Coupler edges b d → Coupler edges c d →
  [a, b, c, d].Nodup → False

/-- A new edge that none of four nodes joined pairwise needs, or whose ends are two of the four. -/
theorem k4_step {seen : List (Nat × Nat)} {e : Nat × Nat} (hn : NoK4 seen)
    (hno : ∀ p q, Coupler seen e.1 p → Coupler seen e.2 p → Coupler seen e.1 q → Coupler seen e.2 q → Coupler seen p q → False) : NoK4 (seen ++ [e]) := by
  intro a b c d hab hac had hbc hbd hcd hnd
  simp only [List.nodup_cons, List.mem_cons, List.not_mem_nil, or_false, not_or, List.nodup_nil, and_true] at hnd
  obtain ⟨⟨n1, n2, n3⟩, ⟨n4, n5⟩, n6, _⟩ := hnd
  have key : ∀ p q, Coupler (seen ++ [e]) p q → ¬ Coupler seen p q → (p = e.1 ∧ q = e.2) ∨ (p = e.2 ∧ q = e.1) := fun p q h1 h2 => (coupler_last h1).resolve_left h2
  have old : ∀ p q, Coupler (seen ++ [e]) p q → ¬ (p = e.1 ∧ q = e.2) → ¬ (p = e.2 ∧ q = e.1) → Coupler seen p q := by
    intro p q h1 h2 h3
    rcases coupler_last h1 with h | h | h
    · exact h
    · exact absurd h h2
    · exact absurd h h3
  /- the edge joins two of the four: the other edges are old -/
  have two : ∀ x y p q, Coupler (seen ++ [e]) x p → Coupler (seen ++ [e]) x q → Coupler (seen ++ [e]) y p → Coupler (seen ++ [e]) y q → Coupler (seen ++ [e]) p q →
      x ≠ y → x ≠ p → x ≠ q → y ≠ p → y ≠ q → ((x = e.1 ∧ y = e.2) ∨ (x = e.2 ∧ y = e.1)) → False := by
    intro x y p q h1 h2 h3 h4 h5 m0 m1 m2 m3 m4 hxy
    have o1 : Coupler seen x p := old _ _ h1 (by rintro ⟨a, b⟩; rcases hxy with ⟨c, d⟩ | ⟨c, d⟩ <;> omega) (by rintro ⟨a, b⟩; rcases hxy with ⟨c, d⟩ | ⟨c, d⟩ <;> omega)
    have o2 : Coupler seen x q := old _ _ h2 (by rintro ⟨a, b⟩; rcases hxy with ⟨c, d⟩ | ⟨c, d⟩ <;> omega) (by rintro ⟨a, b⟩; rcases hxy with ⟨c, d⟩ | ⟨c, d⟩ <;> omega)
    have o3 : Coupler seen y p := old _ _ h3 (by rintro ⟨a, b⟩; rcases hxy with ⟨c, d⟩ | ⟨c, d⟩ <;> omega) (by rintro ⟨a, b⟩; rcases hxy with ⟨c, d⟩ | ⟨c, d⟩ <;> omega)
    have o4 : Coupler seen y q := old _ _ h4 (by rintro ⟨a, b⟩; rcases hxy with ⟨c, d⟩ | ⟨c, d⟩ <;> omega) (by rintro ⟨a, b⟩; rcases hxy with ⟨c, d⟩ | ⟨c, d⟩ <;> omega)
    have o5 : Coupler seen p q := old _ _ h5 (by rintro ⟨a, b⟩; rcases hxy with ⟨c, d⟩ | ⟨c, d⟩ <;> omega) (by rintro ⟨a, b⟩; rcases hxy with ⟨c, d⟩ | ⟨c, d⟩ <;> omega)
    rcases hxy with ⟨rfl, rfl⟩ | ⟨rfl, rfl⟩
    · exact hno p q o1 o3 o2 o4 o5
    · exact hno p q o3 o1 o4 o2 o5
  by_cases k1 : Coupler seen a b
  · by_cases k2 : Coupler seen a c
    · by_cases k3 : Coupler seen a d
      · by_cases k4 : Coupler seen b c
        · by_cases k5 : Coupler seen b d
          · by_cases k6 : Coupler seen c d
            · exact hn a b c d k1 k2 k3 k4 k5 k6 (by simp [n1, n2, n3, n4, n5, n6])
            · exact two c d a b hac.symm hbc.symm had.symm hbd.symm hab n6 (Ne.symm n2) (Ne.symm n4) (Ne.symm n3) (Ne.symm n5) (key c d hcd k6)
          · exact two b d a c hab.symm hbc had.symm hcd.symm hac n5 (Ne.symm n1) n4 (Ne.symm n3) (Ne.symm n6) (key b d hbd k5)
        · exact two b c a d hab.symm hbd hac.symm hcd had n4 (Ne.symm n1) n5 (Ne.symm n2) n6 (key b c hbc k4)
      · exact two a d b c hab hac hbd.symm hcd.symm hbc n3 n1 n2 (Ne.symm n5) (Ne.symm n6) (key a d had k3)
    · exact two a c b d hab had hbc.symm hcd hbd n2 n1 n3 (Ne.symm n4) n6 (key a c hac k2)
  · exact two a b c d hac had hbc hbd hcd n1 n2 n3 n4 n5 (key a b hab k1)

theorem generic4Inner_some {adj : AdjMap} {A B : List Nat} {p q : Nat} (h : generic4Inner adj A B = some (p, q)) : p ∈ A ∧ q ∈ A ∧ p ∈ B ∧ q ∈ B ∧ p ∈ adj q := by
  unfold generic4Inner at h
  have h1 := List.mem_of_find?_eq_some h
  have h2 := List.find?_some h
  simp only [List.mem_flatMap, List.mem_map, Prod.mk.injEq] at h1
  obtain ⟨a, ha, b, hb, rfl, rfl⟩ := h1
  simp only [Bool.and_eq_true, decide_eq_true_eq, Bool.not_eq_true', Bool.or_eq_false_iff, decide_eq_false_iff_not, not_not] at h2
  exact ⟨ha, hb, h2.1.1, h2.1.2.2, h2.2⟩

theorem generic4Inner_none {adj : AdjMap} {A B : List Nat} (h : generic4Inner adj A B = none) {p q : Nat} (h1 : p ∈ A) (h2 : q ∈ A) (h3 : p ∈ B) (h4 : q ∈ B) (h5 : p ∈ adj q) (h6 : q ≤ p) : False := by
  unfold generic4Inner at h
  have := List.find?_eq_none.mp h (p, q) (by
    simp only [List.mem_flatMap, List.mem_map, Prod.mk.injEq]
    exact ⟨p, h1, q, h2, rfl, rfl⟩)
  apply this
  simp only [Bool.and_eq_true, decide_eq_true_eq, Bool.not_eq_true', Bool.or_eq_false_iff, decide_eq_false_iff_not, not_not]
  exact ⟨⟨h3, by omega, h4⟩, h5⟩

theorem generic4Loop_ok {adj : AdjMap} {seen es : List (Nat × Nat)} (h : Holds adj seen) (hl : ∀ e ∈ seen ++ es, e.1 ≠ e.2) (hn : NoK4 seen) :
    (∀ emb, generic4Loop adj es = some emb → ∃ a b c d, emb = [[a], [b], [c], [d]] ∧ Coupler (seen ++ es) a b ∧ Coupler (seen ++ es) a c ∧ Coupler (seen ++ es) a d ∧ Coupler (seen ++ es) b c ∧
      Coupler (seen ++ es) b d ∧ Coupler (seen ++ es) c d ∧ [a, b, c, d].Nodup) ∧
      (generic4Loop adj es = none → NoK4 (seen ++ es)) := by
  induction es generalizing adj seen with
  | nil =>
    rw [List.append_nil]
    exact ⟨fun emb he => (by cases he), fun _ => hn⟩
  | cons e es ih =>
    have hne : ∀ p q, Coupler (seen ++ e :: es) p q → p ≠ q := by
      rintro p q (hc | hc)
      · exact hl _ hc
      · exact fun e => hl _ hc e.symm
    have hsub : ∀ f ∈ seen, f ∈ seen ++ e :: es := fun f hf => List.mem_append_left _ hf
    have hab : Coupler (seen ++ e :: es) e.1 e.2 := .inl (by simp)
    simp only [generic4Loop]
    cases hf : generic4Inner adj (adj e.1) (adj e.2) with
    | some pq =>
      obtain ⟨p, q⟩ := pq
      refine ⟨fun emb he => ?_, fun he => by cases he⟩
      cases he
      obtain ⟨g1, g2, g3, g4, g5⟩ := generic4Inner_some hf
      have h1 := coupler_mono hsub ((h _ _).mp g1)
      have h2 := coupler_mono hsub ((h _ _).mp g2)
      have h3 := coupler_mono hsub ((h _ _).mp g3)
      have h4 := coupler_mono hsub ((h _ _).mp g4)
      have h5 := (coupler_mono hsub ((h _ _).mp g5)).symm
      refine ⟨e.1, e.2, p, q, rfl, hab, h1, h2, h3, h4, h5, ?_⟩
      simp only [List.nodup_cons, List.mem_cons, List.not_mem_nil, or_false, not_or, List.nodup_nil, and_true, not_false_eq_true]
      exact ⟨⟨hne _ _ hab, hne _ _ h1, hne _ _ h2⟩, ⟨hne _ _ h3, hne _ _ h4⟩, hne _ _ h5⟩
    | none =>
      have := ih (h.add e) (by rw [List.append_assoc]; exact hl) (k4_step hn (by
        intro p q c1 c2 c3 c4 c5
        rcases Nat.le_total q p with hpq | hpq
        · exact generic4Inner_none hf ((h _ _).mpr c1) ((h _ _).mpr c3) ((h _ _).mpr c2) ((h _ _).mpr c4) ((h _ _).mpr c5.symm) hpq
        · exact generic4Inner_none hf ((h _ _).mpr c3) ((h _ _).mpr c1) ((h _ _).mpr c4) ((h _ _).mpr c2) ((h _ _).mpr c5) hpq))
      rw [List.append_assoc] at this
      exact this

end Bus
end MM
