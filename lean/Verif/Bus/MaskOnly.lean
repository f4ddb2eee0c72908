import Verif.Bus.BestInv
import Verif.Bus.CliqueNum
import Verif.Cache.CliqueInv

/-! On what the cliques found depend: the masks, the draws if many couplers are missing, and the order in which the graph is listed only for chains of one qubit. -/

namespace MM
namespace Bus

section
variable {T : Topo} {nodes nodes' : List Nat} {edges edges' : List (Nat × Nat)} {bound : Nat} {D D' E E' : Draws} {M : Masks}

theorem searched_masks (h : buildMasks T nodes edges = buildMasks T nodes' edges') : searched T bound D D' nodes edges = searched T bound D D' nodes' edges' := by
  simp only [searched, start, h]

theorem mergeYield_getElem? (a b : List (List (List Nat))) (i : Nat) :
    (mergeYield a b)[i]? = match a[i]?, b[i]? with | some o, some e => some (if o.length < e.length then e else o) | some o, none => some o | none, x => x := by
  induction a generalizing b i with
  | nil =>
    have h : mergeYield [] b = b := by
      induction b with
      | nil => rfl
      | cons e es ih => rw [mergeYield, ih]
    rw [h, List.getElem?_nil]
  | cons o a ih =>
    cases b with
    | nil =>
      rw [mergeYield, List.getElem?_nil]
      cases (o :: a)[i]? <;> rfl
    | cons e es =>
      rw [mergeYield]
      cases i with
      | zero => rfl
      | succ i => simpa using ih es i

/-- Apart from entry 1, what is merged does not depend on entry 1. -/
theorem fold_merge {f : Masks → B Yield} (l : List Masks) {a b r : List (List (List Nat))} (hab : ∀ i, i ≠ 1 → a[i]? = b[i]?)
    (h : l.foldlM (m := B) (fun embs C => do let Y ← f C; pure (mergeYield embs Y.embs)) a = .ok r) :
    ∃ r', l.foldlM (m := B) (fun embs C => do let Y ← f C; pure (mergeYield embs Y.embs)) b = .ok r' ∧ ∀ i, i ≠ 1 → r[i]? = r'[i]? := by
  induction l generalizing a b with
  | nil => cases h; exact ⟨b, rfl, hab⟩
  | cons C l ih =>
    rw [List.foldlM_cons] at h ⊢
    cases hY : f C with
    | error e => simp only [hY, bind, Except.bind] at h; cases h
    | ok Y =>
      simp only [hY, bind, Except.bind, pure, Except.pure] at h ⊢
      simp only [bind, Except.bind, pure, Except.pure] at ih
      refine ih (fun i hi => ?_) h
      rw [mergeYield_getElem?, mergeYield_getElem?, hab i hi]

/-- Graphs with the same masks have the same cliques, apart from those of single qubits. -/
theorem bestCliques_masks (h : buildMasks T nodes edges = buildMasks T nodes' edges') {r : List (List (List Nat))} (hr : bestCliques T bound D D' nodes edges = .ok r) :
    ∃ r', bestCliques T bound D D' nodes' edges' = .ok r' ∧ ∀ i, i ≠ 1 → r[i]? = r'[i]? := by
  unfold bestCliques at hr ⊢
  rw [searched_masks h] at hr
  cases hl : searched T bound D D' nodes' edges' with
  | error e => simp only [hl, bind, Except.bind] at hr; cases hr
  | ok l =>
    simp only [hl] at hr ⊢
    refine fold_merge l ?_ hr
    intro i hi
    match i with
    | 0 => rfl
    | 1 => exact absurd rfl hi
    | _ + 2 => rfl

theorem next_undrawn {s : State} (h : 2 ^ s.badEdges.length ≤ bound) (call call' : Nat) : next T M bound D call s = next T M bound E call' s := by
  unfold next
  split
  · rfl
  · simp only [if_pos h]

theorem next_keeps {s s' : State} (h : 2 ^ s.badEdges.length ≤ bound) {call : Nat} (hn : next T M bound D call s = .ok (some s')) : s'.badEdges = s.badEdges := by
  unfold next at hn
  split at hn
  · split at hn <;> cases hn
    rfl
  · split at hn
    · cases hc : childOf T M (pickFew s.badEdges s.maskNum) with
      | error e => simp only [hc, bind, Except.bind] at hn; cases hn
      | ok c => simp only [hc, bind, Except.bind] at hn; cases hn; rfl
    · cases hn

theorem visits_undrawn (fuel : Nat) {s : State} (h : 2 ^ s.badEdges.length ≤ bound) (call call' : Nat) : visits T M bound D fuel call s = visits T M bound E fuel call' s := by
  induction fuel generalizing s call call' with
  | zero => rfl
  | succ fuel ih =>
    rw [visits, visits, next_undrawn (E := E) h call call']
    cases hn : next T M bound E call' s with
    | error e => rfl
    | ok r =>
      cases r with
      | none => rfl
      | some s' =>
        simp only [bind, Except.bind]
        rw [ih (by rw [next_keeps h hn]; exact h) (call + 1) (call' + 1)]

/-- With few missing couplers nothing that is drawn matters. -/
theorem searched_undrawn {L : List (Nat × Nat)} (hM : buildMasks T nodes edges = .ok M) (hL : badEdges T M.bad = .ok L) (h : 2 ^ L.length ≤ bound) :
    searched T bound D D' nodes edges = searched T bound E E' nodes edges := by
  have hs : start T bound D nodes edges = start T bound E nodes edges := by
    simp only [start, hM, hL, bind, Except.bind]
    rw [next_undrawn (E := E) (s := ⟨0, L, M⟩) h 0 0]
  unfold searched
  rw [hs]
  cases he : start T bound E nodes edges with
  | error e => rfl
  | ok p =>
    obtain ⟨M', s⟩ := p
    have hb : s.badEdges = L ∧ M' = M := by
      simp only [start, hM, hL, bind, Except.bind] at he
      cases hn : next T M bound E 0 ⟨0, L, M⟩ with
      | error e => simp only [hn] at he; cases he
      | ok r =>
        cases r with
        | none => simp only [hn] at he; cases he
        | some s' =>
          simp only [hn, pure, Except.pure, Except.ok.injEq, Prod.mk.injEq] at he
          obtain ⟨rfl, rfl⟩ := he
          exact ⟨next_keeps (s := ⟨0, L, M⟩) h hn, rfl⟩
    obtain ⟨hb, rfl⟩ := hb
    simp only [bind, Except.bind]
    have hr : reset T M' bound D' s = reset T M' bound E' s := by
      unfold reset
      rw [next_undrawn (E := E') (s := { s with maskNum := 0 }) (by rw [hb]; exact h) 0 0]
    rw [hr]
    cases he' : reset T M' bound E' s with
    | error e => rfl
    | ok s2 =>
      have hb2 : s2.badEdges = L := by
        unfold reset at he'
        split at he'
        · cases hn : next T M' bound E' 0 { s with maskNum := 0 } with
          | error e => simp only [hn, bind, Except.bind] at he'; cases he'
          | ok r =>
            cases r with
            | none => simp only [hn, bind, Except.bind, pure, Except.pure, Except.ok.injEq] at he'; rw [← he']; exact hb
            | some s' =>
              simp only [hn, bind, Except.bind, pure, Except.pure, Except.ok.injEq] at he'
              rw [← he', next_keeps (s := { s with maskNum := 0 }) (by rw [hb]; exact h) hn]
              exact hb
        · cases he'; exact hb
      simp only
      rw [visits_undrawn (E := E') (bound + 2) (by rw [hb2]; exact h) 1 1]

theorem bestCliques_undrawn {L : List (Nat × Nat)} (hM : buildMasks T nodes edges = .ok M) (hL : badEdges T M.bad = .ok L) (h : 2 ^ L.length ≤ bound) :
    bestCliques T bound D D' nodes edges = bestCliques T bound E E' nodes edges := by
  unfold bestCliques
  rw [searched_undrawn (E := E) (E' := E') hM hL h]

end

end Bus

namespace Cache

/-- The cache depends only on the first entry that is large enough. -/
theorem find_agree {α : Type} {r r' : List Emb} {labels : List α} (h : ∀ i, i ≠ 1 → r[i]? = r'[i]?) (h1 : ∀ e : Emb, r[1]? = some e → e.length < labels.length) (h2 : ∀ e : Emb, r'[1]? = some e → e.length < labels.length) :
    find (make r) labels = find (make r') labels := by
  have hr := make_ok r
  have hr' := make_ok r'
  have key : ∀ {r r' : List Emb}, (∀ i, i ≠ 1 → r[i]? = r'[i]?) → (∀ e : Emb, r[1]? = some e → e.length < labels.length) → (∀ e : Emb, r'[1]? = some e → e.length < labels.length) → ∀ i : Nat,
      ((∃ e : Emb, r[i]? = some e ∧ labels.length ≤ e.length) ∧ ∀ j < i, ∀ e : Emb, r[j]? = some e → e.length < labels.length) →
      ((∃ e : Emb, r'[i]? = some e ∧ labels.length ≤ e.length) ∧ ∀ j < i, ∀ e : Emb, r'[j]? = some e → e.length < labels.length) ∧ r[i]? = r'[i]? := by
    intro r r' h h1 h2 i ⟨⟨e, he, hl⟩, hm⟩
    have hi : i ≠ 1 := by rintro rfl; have := h1 e he; omega
    refine ⟨⟨⟨e, by rw [← h i hi]; exact he, hl⟩, fun j hj e' he' => ?_⟩, h i hi⟩
    by_cases hj1 : j = 1
    · subst hj1; exact h2 e' he'
    · exact hm j hj e' (by rw [h j hj1]; exact he')
  unfold find
  cases hd : dget (make r).size labels.length with
  | some i =>
    obtain ⟨k1, k2⟩ := key h h1 h2 i ((hr.size _ _).mp hd)
    rw [(hr'.size _ _).mpr k1]
    simp only [rawAt, hr.raw, hr'.raw, k2]
  | none =>
    cases hd' : dget (make r').size labels.length with
    | none => rfl
    | some i =>
      obtain ⟨k1, -⟩ := key (fun i hi => (h i hi).symm) h2 h1 i ((hr'.size _ _).mp hd')
      rw [(hr.size _ _).mpr k1] at hd
      cases hd

end Cache
end MM
