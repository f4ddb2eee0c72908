import Verif.Py.DiagInv

/-! Property C27: `diagnose_embedding`, `is_valid_embedding` and `verify_embedding`. -/

namespace MM

open Py Spec.Py

variable {α β : Type} [DecidableEq α] [DecidableEq β]
variable {ordQ : List β → List β} {ordX : List α → List α}

/-- Every error yielded is a true defect. -/
theorem C27_errors_are_defects (hQ : ∀ l, (ordQ l).Perm l) (hX : ∀ l, (ordX l).Perm l)
    (src : Graph α) (tgt : Graph β) (hS : src.WF) (hT : tgt.WF) (emb : α → Option (List β)) :
    ∀ e ∈ diagnose ordQ ordX emb src tgt, Defect src tgt emb e :=
  fun e he => (mem_diagnose hQ hX hS hT emb e).1 he

/-- Every defect is reported: an overlap by some error at the same target node, the others literally. -/
theorem C27_defects_are_reported (hQ : ∀ l, (ordQ l).Perm l) (hX : ∀ l, (ordX l).Perm l)
    (src : Graph α) (tgt : Graph β) (hS : src.WF) (hT : tgt.WF) (emb : α → Option (List β)) (e : Err α β)
    (he : Defect src tgt emb e) :
    e ∈ diagnose ordQ ordX emb src tgt ∨
      ∃ q x y x' y', e = .overlap q x y ∧ Err.overlap q x' y' ∈ diagnose ordQ ordX emb src tgt := by
  have h := (mem_diagnose hQ hX hS hT emb e).2 he
  cases e with
  | overlap q x y =>
    obtain ⟨x', y', h⟩ := h
    exact .inr ⟨q, x, y, x', y', rfl, h⟩
  | _ => exact .inl h

/-- A mapping has no defect exactly when it is a minor embedding. -/
theorem Spec.Py.minorEmbedding_iff (src : Graph α) (tgt : Graph β) (hS : src.WF) (emb : α → Option (List β)) :
    MinorEmbedding src tgt emb ↔ ∀ e, ¬ Defect src tgt emb e := by
  constructor
  · intro M e he
    cases e with
    | missingChain x =>
      obtain ⟨hx, h⟩ := he
      obtain ⟨c, hc, hne⟩ := M.chain x hx
      rcases h with h | h
      · rw [hc] at h; cases h
      · rw [hc] at h; cases h; exact hne rfl
    | invalidNode x q =>
      obtain ⟨hx, hq, c, hc, hm⟩ := he
      exact hq (M.nodes x hx c hc q hm)
    | disconnected x =>
      obtain ⟨hx, c, hc, hl⟩ := he
      exact hl (M.linked x hx c hc.1)
    | overlap q x y =>
      obtain ⟨hx, hy, hne, _, c, d, hc, hd, hqc, hqd⟩ := he
      exact M.disjoint x hx y hy hne c d hc hd q hqc hqd
    | missingEdge x y =>
      obtain ⟨hin, hne, c, d, hc, hd, hj⟩ := he
      exact hj (M.edges x y (.inl hin) hne c d hc.1 hd.1)
  · intro h
    have hch : ∀ x ∈ src.nodes, ∃ c, emb x = some c ∧ c ≠ [] := by
      intro x hx
      cases hc : emb x with
      | none => exact absurd ⟨hx, .inl hc⟩ (h (.missingChain x))
      | some c =>
        refine ⟨c, rfl, ?_⟩
        rintro rfl
        exact h (.missingChain x) ⟨hx, .inr hc⟩
    have hno : ∀ x ∈ src.nodes, ∀ c, emb x = some c → ∀ q ∈ c, q ∈ tgt.nodes := by
      intro x hx c hc q hq
      by_contra hn
      exact h (.invalidNode x q) ⟨hx, hn, c, hc, hq⟩
    have hpl : ∀ x ∈ src.nodes, ∀ c, emb x = some c → Placed tgt emb x c := by
      intro x hx c hc
      refine ⟨hc, ?_, hno x hx c hc⟩
      obtain ⟨d, hd, hne⟩ := hch x hx
      rw [hc] at hd
      cases hd
      exact hne
    refine ⟨hch, hno, ?_, ?_, ?_⟩
    · intro x hx c hc
      by_contra hl
      exact h (.disconnected x) ⟨hx, c, hpl x hx c hc, hl⟩
    · intro x hx y hy hne c d hc hd q hqc hqd
      exact h (.overlap q x y) ⟨hx, hy, hne, hno x hx c hc q hqc, c, d, hc, hd, hqc, hqd⟩
    · intro x y hadj hne c d hc hd
      by_contra hj
      rcases hadj with hadj | hadj
      · have := hS.ends _ hadj
        exact h (.missingEdge x y) ⟨hadj, hne, c, d, hpl x this.1 c hc, hpl y this.2 d hd, hj⟩
      · have := hS.ends _ hadj
        refine h (.missingEdge y x) ⟨hadj, fun e => hne e.symm, d, c, hpl y this.1 d hd, hpl x this.2 c hc, ?_⟩
        rintro ⟨p, hp, q, hq, ha⟩
        exact hj ⟨q, hq, p, hp, ha.symm⟩

/-- No error is yielded exactly when the mapping is a minor embedding. -/
theorem C27_no_error_iff_minor_embedding (hQ : ∀ l, (ordQ l).Perm l) (hX : ∀ l, (ordX l).Perm l)
    (src : Graph α) (tgt : Graph β) (hS : src.WF) (hT : tgt.WF) (emb : α → Option (List β)) :
    diagnose ordQ ordX emb src tgt = [] ↔ MinorEmbedding src tgt emb := by
  rw [minorEmbedding_iff src tgt hS emb]
  constructor
  · intro h e he
    rcases C27_defects_are_reported hQ hX src tgt hS hT emb e he with h1 | ⟨q, x, y, x', y', _, h1⟩
    · rw [h] at h1; cases h1
    · rw [h] at h1; cases h1
  · intro h
    cases hd : diagnose ordQ ordX emb src tgt with
    | nil => rfl
    | cons e l =>
      exact absurd (C27_errors_are_defects hQ hX src tgt hS hT emb e (by rw [hd]; simp)) (h e)

/-- `is_valid_embedding` returns `True` exactly for minor embeddings. -/
theorem C27_is_valid (hQ : ∀ l, (ordQ l).Perm l) (hX : ∀ l, (ordX l).Perm l)
    (src : Graph α) (tgt : Graph β) (hS : src.WF) (hT : tgt.WF) (emb : α → Option (List β)) :
    isValid ordQ ordX emb src tgt = true ↔ MinorEmbedding src tgt emb := by
  rw [← C27_no_error_iff_minor_embedding hQ hX src tgt hS hT emb]
  unfold isValid
  split
  · rename_i h; simp [h]
  · rename_i h; simp [h]

/-- `verify_embedding` returns `True` exactly when every yielded error is of an ignored class; what it raises
is the first error of another class, and a true defect. Without ignored classes it returns `True` exactly for
minor embeddings. -/
theorem C27_verify (hQ : ∀ l, (ordQ l).Perm l) (hX : ∀ l, (ordX l).Perm l)
    (src : Graph α) (tgt : Graph β) (hS : src.WF) (hT : tgt.WF) (emb : α → Option (List β)) (ignored : List ErrClass) :
    (verify ordQ ordX ignored emb src tgt = none ↔ ∀ e, Defect src tgt emb e → e.cls ∈ ignored) ∧
    (∀ e, verify ordQ ordX ignored emb src tgt = some e → Defect src tgt emb e ∧ e.cls ∉ ignored ∧
      ∃ pre post, diagnose ordQ ordX emb src tgt = pre ++ e :: post ∧ ∀ d ∈ pre, d.cls ∈ ignored) ∧
    (verify ordQ ordX [] emb src tgt = none ↔ MinorEmbedding src tgt emb) := by
  have hnone : ∀ ign, verify ordQ ordX ign emb src tgt = none ↔ ∀ e, Defect src tgt emb e → e.cls ∈ ign := by
    intro ign
    unfold verify
    rw [List.find?_eq_none]
    simp only [decide_not, Bool.not_eq_true', decide_eq_false_iff_not, not_not]
    constructor
    · intro h e he
      rcases C27_defects_are_reported hQ hX src tgt hS hT emb e he with h1 | ⟨q, x, y, x', y', rfl, h1⟩
      · exact h e h1
      · exact h (.overlap q x' y') h1
    · intro h e he
      exact h e (C27_errors_are_defects hQ hX src tgt hS hT emb e he)
  refine ⟨hnone ignored, ?_, ?_⟩
  · intro e he
    unfold verify at he
    rw [List.find?_eq_some_iff_append] at he
    obtain ⟨hp, as, bs, heq, hall⟩ := he
    refine ⟨C27_errors_are_defects hQ hX src tgt hS hT emb e (by rw [heq]; simp), by simpa using hp, as, bs, heq, ?_⟩
    intro d hd
    simpa using hall d hd
  · rw [hnone [], minorEmbedding_iff src tgt hS emb]
    simp

/-! ### Examples: the triangle of the documentation in a square -/

namespace Demo

/-- The triangle and the square of the documentation of `diagnose_embedding`. -/
def tri : Graph Nat := { nodes := [0, 1, 2], edges := [(0, 1), (0, 2), (1, 2)] }
def square : Graph Nat := { nodes := [0, 1, 2, 3], edges := [(0, 1), (0, 3), (1, 2), (2, 3)] }
def triEmb : Nat → Option (List Nat)
  | 0 => some [1] | 1 => some [0] | 2 => some [2, 3] | _ => none
def triBad : Nat → Option (List Nat)
  | 0 => some [2] | 1 => some [1, 7] | 2 => some [2, 3] | _ => none

theorem tri_wf : tri.WF := ⟨by decide, by decide⟩
theorem square_wf : square.WF := ⟨by decide, by decide⟩

example : MinorEmbedding tri square triEmb :=
  (C27_no_error_iff_minor_embedding (ordQ := id) (ordX := id) (fun _ => .refl _) (fun _ => .refl _) tri square tri_wf square_wf triEmb).mp
    (by decide +kernel)

example : diagnose id id triBad tri square = [.invalidNode 1 7, .overlap 2 0 2] := by decide +kernel

example : diagnose id id (fun x => if x = 2 then some [1, 3] else triEmb x) tri square = [.disconnected 2, .overlap 1 0 2, .missingEdge 0 2] := by
  decide +kernel

example : diagnose id id (fun x => some [x]) tri square = [.missingEdge 0 2] := by decide +kernel

example : verify id id [.invalidNode] triBad tri square = some (.overlap 2 0 2) := by decide +kernel

end Demo

end MM
