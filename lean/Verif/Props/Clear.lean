import Verif.Cache.Clear
import Mathlib.Data.List.Nodup
import Mathlib.Data.List.Infix
import Mathlib.Data.List.Perm.Subperm

/-! C113: clearing all caches. -/

namespace MM
namespace Cache
namespace Clear

/-- A file system: each path once, each in a directory. -/
structure Tree (fs : FS) : Prop where
  unique : (fs.map Prod.fst).Nodup
  parents : ∀ n p k, (n :: p, k) ∈ fs → p ≠ [] → (p, Kind.dir) ∈ fs

/-- At or below the directory of one of the versions. -/
def Below (version : Nat) (root : Nat → Path) (p : Path) : Prop := ∃ i ≤ version, root i <:+ p

/-- No link at or above the path. -/
def NoLinks (fs : FS) (p : Path) : Prop := ∀ q, q <:+ p → ∀ t, (q, Kind.link t) ∉ fs

theorem NoLinks.mono {fs fs' : FS} {p : Path} (h : NoLinks fs p) (hs : ∀ e ∈ fs', e ∈ fs) : NoLinks fs' p := fun q hq t hm => h q hq t (hs _ hm)

theorem resolve_eq {fs : FS} {p : Path} (h : NoLinks fs p) : resolve fs p = p := by
  induction p with
  | nil => rfl
  | cons n p ih =>
    have hp := ih fun q hq => h q (hq.trans (List.suffix_cons n p))
    unfold resolve
    rw [hp]
    split
    · rename_i t ht
      exact absurd (mem_of_dget ht) (h _ List.suffix_rfl t)
    · rfl

theorem mem_children {fs : FS} {d : Path} {n : String} : n ∈ fs.filterMap (nameIn d) ↔ ∃ k, (n :: d, k) ∈ fs := by
  rw [List.mem_filterMap]
  constructor
  · rintro ⟨⟨p, k⟩, h1, h2⟩
    cases p with
    | nil => cases h2
    | cons m p =>
      simp only [nameIn] at h2
      split at h2
      · rename_i e; cases e; cases h2; exact ⟨k, h1⟩
      · cases h2
  · rintro ⟨k, h⟩
    exact ⟨_, h, by simp [nameIn]⟩

theorem children_nodup {fs : FS} (h : (fs.map Prod.fst).Nodup) (d : Path) : (fs.filterMap (nameIn d)).Nodup := by
  have h1 : fs.Pairwise fun a b => a.1 ≠ b.1 := List.pairwise_map.mp h
  refine List.Pairwise.filterMap _ (fun a b hab x hx y hy => ?_) h1
  intro e
  subst e
  obtain ⟨a, ka⟩ := a
  obtain ⟨b, kb⟩ := b
  cases a with
  | nil => cases hx
  | cons m p =>
    cases b with
    | nil => cases hy
    | cons m' p' =>
      simp only [nameIn] at hx hy
      split at hx
      · split at hy
        · rename_i e1 e2; cases e1; cases e2
          cases hx; cases hy
          exact hab rfl
        · cases hy
      · cases hx

/-- The loop over a directory removes all but directories, which it collects. -/
theorem sweep_ok {version : Nat} {root : Nat → Path} {top : Path} (hb : Below version root top) : ∀ (items : List Path) (fs : FS) (sub : List Path), (fs.map Prod.fst).Nodup → NoLinks fs top →
    (∀ p t, (p, Kind.link t) ∈ fs → Below version root p → (t, Kind.dir) ∉ fs) → items.Nodup → (∀ i ∈ items, ∃ n k, i = n :: top ∧ (i, k) ∈ fs) →
    ∃ fs' ds, sweep items fs sub = (fs', sub ++ ds, none) ∧ fs'.Sublist fs ∧ (∀ e, e ∈ fs' ↔ e ∈ fs ∧ (e.1 ∈ items → e.2 = .dir)) ∧ ds.Sublist items ∧ (∀ i, i ∈ ds ↔ i ∈ items ∧ (i, Kind.dir) ∈ fs) := by
  intro items
  induction items with
  | nil =>
    intro fs sub _ _ _ _ _
    exact ⟨fs, [], by simp [sweep], List.Sublist.refl _, by simp, List.Sublist.refl _, by simp⟩
  | cons i items ih =>
    intro fs sub hu hl ht hn hi
    obtain ⟨n, k, rfl, hk⟩ := hi i List.mem_cons_self
    obtain ⟨hn1, hn2⟩ := List.nodup_cons.mp hn
    have hpar : parentResolved fs (n :: top) = n :: top := by simp only [parentResolved, resolve_eq hl]
    have hget := dget_of_mem hu hk
    have huniq : ∀ k', (n :: top, k') ∈ fs → k' = k := fun k' h => by
      have := dget_of_mem hu h
      rw [hget] at this
      exact (Option.some.inj this).symm
    by_cases hd : k = .dir
    · subst hd
      have hnl : NoLinks fs (n :: top) := by
        intro q hq t hm
        rcases List.suffix_cons_iff.mp hq with rfl | hq
        · cases huniq _ hm
        · exact hl q hq t hm
      have hdir : isDir fs (n :: top) = true := by simp only [isDir, kindAt, resolve_eq hnl, hget, decide_true]
      obtain ⟨fs', ds, h1, h2, h3, h4, h5⟩ := ih fs (sub ++ [n :: top]) hu hl ht hn2 fun j hj => hi j (List.mem_cons_of_mem _ hj)
      refine ⟨fs', (n :: top) :: ds, ?_, h2, fun e => ?_, h4.cons_cons _, fun j => ?_⟩
      · rw [sweep, if_pos hdir, h1, List.append_assoc, List.singleton_append]
      · rw [h3 e, List.mem_cons]
        refine and_congr_right fun he => ⟨fun h => ?_, fun h hm => h (.inr hm)⟩
        rintro (h' | h')
        · obtain ⟨p, k'⟩ := e
          cases h'
          exact huniq _ he
        · exact h h'
      · rw [List.mem_cons, List.mem_cons, h5 j]
        constructor
        · rintro (rfl | ⟨a, b⟩)
          · exact ⟨.inl rfl, hk⟩
          · exact ⟨.inr a, b⟩
        · rintro ⟨rfl | a, b⟩
          · exact .inl rfl
          · exact .inr ⟨a, b⟩
    · have hdir : ¬ isDir fs (n :: top) = true := by
        intro hc
        have hc : dget fs (resolve fs (n :: top)) = some Kind.dir := of_decide_eq_true hc
        cases k with
        | dir => exact hd rfl
        | file =>
          have : resolve fs (n :: top) = n :: top := by
            unfold resolve
            rw [resolve_eq hl, hget]
          rw [this, hget] at hc
          cases hc
        | link t =>
          have : resolve fs (n :: top) = t := by
            unfold resolve
            rw [resolve_eq hl, hget]
          rw [this] at hc
          obtain ⟨j, hj, hs⟩ := hb
          exact ht _ t hk ⟨j, hj, hs.trans (List.suffix_cons _ _)⟩ (mem_of_dget hc)
      have hun : unlink fs (n :: top) = .ok (remove fs (n :: top)) := by
        unfold unlink
        rw [hpar, hget]
        cases k with
        | dir => exact absurd rfl hd
        | file => rfl
        | link t => rfl
      have hsub : (remove fs (n :: top)).Sublist fs := List.filter_sublist
      have hmem : ∀ e, e ∈ remove fs (n :: top) ↔ e ∈ fs ∧ e.1 ≠ n :: top := fun e => by simp [remove, List.mem_filter]
      obtain ⟨fs', ds, h1, h2, h3, h4, h5⟩ := ih (remove fs (n :: top)) sub (hu.sublist (hsub.map _)) (hl.mono fun e he => ((hmem e).mp he).1) (fun p t hp hb' hm => ht p t ((hmem _).mp hp).1 hb' ((hmem _).mp hm).1) hn2
        fun j hj => by
          obtain ⟨m, k', e1, e2⟩ := hi j (List.mem_cons_of_mem _ hj)
          exact ⟨m, k', e1, (hmem _).mpr ⟨e2, fun h => hn1 (h ▸ hj)⟩⟩
      refine ⟨fs', ds, ?_, h2.trans hsub, fun e => ?_, h4.cons _, fun j => ?_⟩
      · rw [sweep, if_neg hdir, hun]
        exact h1
      · rw [h3 e, hmem e, List.mem_cons]
        constructor
        · rintro ⟨⟨a, b⟩, c⟩
          exact ⟨a, fun h => h.elim (fun h => absurd h b) c⟩
        · rintro ⟨a, b⟩
          refine ⟨⟨a, fun h => ?_⟩, fun h => b (.inr h)⟩
          have hb' := b (.inl h)
          obtain ⟨p, k'⟩ := e
          dsimp only at h hb'
          subst h; subst hb'
          exact hd (huniq _ a).symm
      · rw [h5 j, hmem, List.mem_cons]
        constructor
        · rintro ⟨a, b, _⟩
          exact ⟨.inr a, b⟩
        · rintro ⟨rfl | a, b⟩
          · exact absurd (huniq _ b).symm hd
          · exact ⟨a, b, fun h => hn1 (h ▸ a)⟩

/-- What holds at the start of each round. -/
structure Sweeping (version : Nat) (root : Nat → Path) (fs0 fs : FS) (stack : List Path) : Prop where
  tree : Tree fs
  links : ∀ p t, (p, Kind.link t) ∈ fs → Below version root p → (t, Kind.dir) ∉ fs
  onStack : ∀ s ∈ stack, s ≠ [] ∧ Below version root s ∧ (s, Kind.dir) ∈ fs ∧ NoLinks fs s
  pair : stack.Pairwise fun a b => ¬ a <:+ b
  cover : ∀ e ∈ fs, Below version root e.1 → ∃ s ∈ stack, s <:+ e.1
  sub : fs.Sublist fs0
  kept : ∀ e ∈ fs0, ¬ Below version root e.1 → e ∈ fs

theorem Sweeping.length {version : Nat} {root : Nat → Path} {fs0 fs : FS} {stack : List Path} (h : Sweeping version root fs0 fs stack) : stack.length ≤ fs.length := by
  have h1 : stack.Nodup := h.pair.imp fun {a b} (hab : ¬ a <:+ b) (e : a = b) => hab (e ▸ List.suffix_rfl)
  have h2 : stack ⊆ fs.map Prod.fst := fun s hs => List.mem_map_of_mem (f := Prod.fst) (h.onStack s hs).2.2.1
  have := (List.subperm_of_subset h1 h2).length_le
  rwa [List.length_map] at this

theorem clearLoop_ok {version : Nat} {root : Nat → Path} {fs0 : FS} : ∀ (fuel : Nat) (fs : FS) (stack : List Path), Sweeping version root fs0 fs stack → 2 * fs.length < fuel + stack.length →
    ∃ fs', clearLoop fuel fs stack = some (fs', none) ∧ fs'.Sublist fs0 ∧ ∀ e, e ∈ fs' ↔ e ∈ fs0 ∧ ¬ Below version root e.1 := by
  intro fuel
  induction fuel with
  | zero => intro fs stack h hf; have := h.length; omega
  | succ fuel ih =>
    intro fs stack h hf
    cases stack with
    | nil =>
      refine ⟨fs, rfl, h.sub, fun e => ⟨fun he => ⟨h.sub.subset he, fun hb => ?_⟩, fun he => h.kept e he.1 he.2⟩⟩
      obtain ⟨s, hs, _⟩ := h.cover e he hb
      cases hs
    | cons top stack =>
      obtain ⟨t0, t1, t2, t3⟩ := h.onStack top List.mem_cons_self
      have hget := dget_of_mem h.tree.unique t2
      have hit : iterdir fs top = .ok ((fs.filterMap (nameIn top)).map (· :: top)) := by
        simp only [iterdir, kindAt, resolve_eq t3, hget]
      have hitems : ∀ i, i ∈ (fs.filterMap (nameIn top)).map (· :: top) ↔ ∃ n k, i = n :: top ∧ (i, k) ∈ fs := by
        intro i
        rw [List.mem_map]
        constructor
        · rintro ⟨n, hn, rfl⟩
          obtain ⟨k, hk⟩ := mem_children.mp hn
          exact ⟨n, k, rfl, hk⟩
        · rintro ⟨n, k, rfl, hk⟩
          exact ⟨n, mem_children.mpr ⟨k, hk⟩, rfl⟩
      obtain ⟨fs', ds, h1, h2, h3, h4, h5⟩ := sweep_ok t1 _ fs [] h.tree.unique t3 h.links ((children_nodup h.tree.unique top).map fun a b e => (List.cons.inj e).1) fun i hi => (hitems i).mp hi
      rw [List.nil_append] at h1
      have hsub : ∀ e ∈ fs', e ∈ fs := fun e he => h2.subset he
      have hdirs : ∀ p, (p, Kind.dir) ∈ fs → (p, Kind.dir) ∈ fs' := fun p hp => (h3 _).mpr ⟨hp, fun _ => rfl⟩
      have htree : Tree fs' := ⟨h.tree.unique.sublist (h2.map _), fun n p k hk hp => hdirs _ (h.tree.parents n p k (hsub _ hk) hp)⟩
      have hlinks : ∀ p t, (p, Kind.link t) ∈ fs' → Below version root p → (t, Kind.dir) ∉ fs' := fun p t hp hb hm => h.links p t (hsub _ hp) hb (hsub _ hm)
      have hkept : ∀ e ∈ fs0, ¬ Below version root e.1 → e ∈ fs' := by
        intro e he hb
        refine (h3 e).mpr ⟨h.kept e he hb, fun hi => ?_⟩
        obtain ⟨n, k, hi, _⟩ := (hitems _).mp hi
        obtain ⟨j, hj, hs⟩ := t1
        exact absurd ⟨j, hj, hi ▸ hs.trans (List.suffix_cons _ _)⟩ hb
      unfold clearLoop
      rw [hit]
      dsimp only
      rw [h1]
      cases ds with
      | nil =>
        dsimp only
        obtain ⟨n, p, rfl⟩ := List.exists_cons_of_ne_nil t0
        have hpar : parentResolved fs' (n :: p) = n :: p := by
          simp only [parentResolved, resolve_eq ((show NoLinks fs p from fun q hq => t3 q (hq.trans (List.suffix_cons _ _))).mono hsub)]
        have hempty : fs'.filterMap (nameIn (n :: p)) = [] := by
          rw [List.eq_nil_iff_forall_not_mem]
          intro m hm
          obtain ⟨k, hk⟩ := mem_children.mp hm
          obtain ⟨a, b⟩ := (h3 _).mp hk
          have hi := (hitems (m :: n :: p)).mpr ⟨m, k, rfl, a⟩
          have := b hi
          dsimp only at this
          subst this
          have := (h5 (m :: n :: p)).mpr ⟨hi, a⟩
          cases this
        have hrm : rmdir fs' (n :: p) = .ok (remove fs' (n :: p)) := by
          unfold rmdir
          rw [hpar, dget_of_mem htree.unique (hdirs _ t2)]
          dsimp only
          rw [if_pos hempty]
        rw [hrm]
        dsimp only
        have hmem : ∀ e, e ∈ remove fs' (n :: p) ↔ e ∈ fs' ∧ e.1 ≠ n :: p := fun e => by simp [remove, List.mem_filter]
        have hsub2 : (remove fs' (n :: p)).Sublist fs' := List.filter_sublist
        obtain ⟨hp1, hp2⟩ := List.pairwise_cons.mp h.pair
        have hne : ∀ s ∈ stack, s ≠ n :: p := fun s hs e => hp1 s hs (e ▸ List.suffix_rfl)
        apply ih
        · refine ⟨⟨htree.unique.sublist (hsub2.map _), fun m q k hk hq => ?_⟩, fun p t hp hb hm => hlinks p t (hsub2.subset hp) hb (hsub2.subset hm), fun s hs => ?_, hp2, fun e he hb => ?_, (hsub2.trans h2).trans h.sub, fun e he hb => ?_⟩
          · refine (hmem _).mpr ⟨htree.parents m q k ((hmem _).mp hk).1 hq, fun e => ?_⟩
            dsimp only at e
            subst e
            have : m ∈ fs'.filterMap (nameIn (n :: p)) := mem_children.mpr ⟨k, ((hmem _).mp hk).1⟩
            rw [hempty] at this
            cases this
          · obtain ⟨s0, s1, s2, s3⟩ := h.onStack s (List.mem_cons_of_mem _ hs)
            exact ⟨s0, s1, (hmem _).mpr ⟨hdirs _ s2, hne s hs⟩, s3.mono fun e he => hsub _ (hsub2.subset he)⟩
          · obtain ⟨he1, he2⟩ := (hmem e).mp he
            obtain ⟨s, hs, hse⟩ := h.cover e (hsub _ he1) hb
            rcases List.mem_cons.mp hs with rfl | hs
            · exfalso
              have key : ∀ q : Path, ∀ k, (q, k) ∈ fs' → n :: p <:+ q → q = n :: p := by
                intro q
                induction q with
                | nil => intro k _ hs; exact absurd (List.suffix_nil.mp hs) (by simp)
                | cons m q ihq =>
                  intro k hk hs
                  rcases List.suffix_cons_iff.mp hs with e | hs
                  · exact e.symm
                  · exfalso
                    have hq0 : q ≠ [] := by rintro rfl; exact absurd (List.suffix_nil.mp hs) (by simp)
                    have := ihq _ (htree.parents m q k hk hq0) hs
                    subst this
                    have : m ∈ fs'.filterMap (nameIn (n :: p)) := mem_children.mpr ⟨k, hk⟩
                    rw [hempty] at this
                    cases this
              exact he2 (key e.1 e.2 he1 hse)
            · exact ⟨s, hs, hse⟩
          · refine (hmem e).mpr ⟨hkept e he hb, fun h' => ?_⟩
            exact hb (h' ▸ t1)
        · have hlt : (remove fs' (n :: p)).length < fs'.length := by
            rcases Nat.lt_or_ge (remove fs' (n :: p)).length fs'.length with h' | h'
            · exact h'
            · have := hsub2.eq_of_length_le h'
              have hm := hdirs _ t2
              rw [← this] at hm
              exact absurd rfl ((hmem _).mp hm).2
          have := h2.length_le
          simp only [List.length_cons] at hf
          omega
      | cons d ds =>
        dsimp only
        apply ih
        · refine ⟨htree, hlinks, fun s hs => ?_, ?_, fun e he hb => ?_, h2.trans h.sub, hkept⟩
          · rcases List.mem_append.mp hs with hs | hs
            · obtain ⟨a, b⟩ := (h5 s).mp (List.mem_reverse.mp hs)
              obtain ⟨n, k, rfl, hk⟩ := (hitems s).mp a
              obtain ⟨j, hj, hsf⟩ := t1
              refine ⟨by simp, ⟨j, hj, hsf.trans (List.suffix_cons _ _)⟩, hdirs _ b, fun q hq t hm => ?_⟩
              rcases List.suffix_cons_iff.mp hq with rfl | hq
              · have e1 := dget_of_mem htree.unique hm
                rw [dget_of_mem htree.unique (hdirs _ b)] at e1
                cases e1
              · exact t3 q hq t (hsub _ hm)
            · obtain ⟨s0, s1, s2, s3⟩ := h.onStack s hs
              exact ⟨s0, s1, hdirs _ s2, s3.mono hsub⟩
          · rw [List.pairwise_append]
            refine ⟨?_, h.pair, fun a ha b hb hab => ?_⟩
            · rw [List.pairwise_reverse]
              have hnd : (d :: ds).Nodup := ((children_nodup h.tree.unique top).map fun a b e => (List.cons.inj e).1).sublist h4
              refine List.Pairwise.imp_of_mem (fun {a b} ha hb hab hs => ?_) hnd
              obtain ⟨n, _, rfl, _⟩ := (hitems a).mp ((h5 a).mp ha).1
              obtain ⟨m, _, rfl, _⟩ := (hitems b).mp ((h5 b).mp hb).1
              exact hab (hs.eq_of_length (by simp)).symm
            · obtain ⟨n, _, rfl, _⟩ := (hitems a).mp ((h5 a).mp (List.mem_reverse.mp ha)).1
              rcases List.mem_cons.mp hb with rfl | hb
              · have := hab.length_le
                rw [List.length_cons] at this
                omega
              · exact (List.pairwise_cons.mp h.pair).1 b hb ((List.suffix_cons _ _).trans hab)
          · obtain ⟨s, hs, hse⟩ := h.cover e (hsub _ he) hb
            exact ⟨s, List.mem_append_right _ hs, hse⟩
        · have := h2.length_le
          simp only [List.length_append, List.length_reverse, List.length_cons] at hf ⊢
          omega

end Clear
end Cache

open Cache.Clear

/-- C113: if the directories of the versions, where they exist, are directories reached without links, none inside of another, and no link inside of them leads to a directory, then clearing returns, what is at or below these directories is
gone, and everything else is as it was. -/
theorem C113_clear_partial {version : Nat} {root : Nat → Path} {fs : FS} (ht : Tree fs) (h0 : ∀ i ≤ version, root i ≠ []) (hne : ∀ i ≤ version, ∀ j ≤ version, i ≠ j → ¬ root i <:+ root j)
    (hd : ∀ i ≤ version, (root i, Kind.file) ∉ fs) (hl : ∀ i ≤ version, NoLinks fs (root i)) (hb : ∀ p t, (p, Kind.link t) ∈ fs → Below version root p → (t, Kind.dir) ∉ fs) :
    ∀ fuel > 2 * fs.length, ∃ fs', clearAll fuel version root fs = some (fs', none) ∧ fs'.Sublist fs ∧ ∀ e, e ∈ fs' ↔ e ∈ fs ∧ ¬ Below version root e.1 := by
  have hroot : ∀ i ≤ version, pathExists fs (root i) = true ↔ (root i, Kind.dir) ∈ fs := by
    intro i hi
    simp only [pathExists, kindAt, resolve_eq (hl i hi)]
    constructor
    · intro h
      obtain ⟨k, hk⟩ := Option.isSome_iff_exists.mp h
      have := Cache.mem_of_dget hk
      cases k with
      | file => exact absurd this (hd i hi)
      | dir => exact this
      | link t => exact absurd this (hl i hi _ List.suffix_rfl t)
    · intro h
      rw [Cache.dget_of_mem ht.unique h]
      rfl
  have hmem : ∀ s, s ∈ ((List.range (version + 1)).map root).filter (pathExists fs) ↔ ∃ i ≤ version, s = root i ∧ (root i, Kind.dir) ∈ fs := by
    intro s
    rw [List.mem_filter, List.mem_map]
    constructor
    · rintro ⟨⟨i, hi, rfl⟩, h⟩
      have hi' : i ≤ version := by rw [List.mem_range] at hi; omega
      exact ⟨i, hi', rfl, (hroot i hi').mp h⟩
    · rintro ⟨i, hi, rfl, h⟩
      exact ⟨⟨i, List.mem_range.mpr (by omega), rfl⟩, (hroot i hi).mpr h⟩
  have hinv : Sweeping version root fs fs (((List.range (version + 1)).map root).filter (pathExists fs)).reverse := by
    refine ⟨ht, hb, fun s hs => ?_, ?_, fun e he hbe => ?_, List.Sublist.refl _, fun e he _ => he⟩
    · obtain ⟨i, hi, rfl, h⟩ := (hmem s).mp (List.mem_reverse.mp hs)
      exact ⟨h0 i hi, ⟨i, hi, List.suffix_rfl⟩, h, hl i hi⟩
    · rw [List.pairwise_reverse]
      refine List.Pairwise.sublist List.filter_sublist ?_
      rw [List.pairwise_map]
      refine List.Pairwise.imp_of_mem (fun {i j} hi hj hij hs => ?_) List.nodup_range
      rw [List.mem_range] at hi hj
      exact hne j (by omega) i (by omega) (Ne.symm hij) hs
    · obtain ⟨i, hi, hs⟩ := hbe
      have key : ∀ q : Path, ∀ k, (q, k) ∈ fs → root i <:+ q → ∃ k', (root i, k') ∈ fs := by
        intro q
        induction q with
        | nil => intro k _ hs; exact absurd (List.suffix_nil.mp hs) (h0 i hi)
        | cons m q ihq =>
          intro k hk hs
          rcases List.suffix_cons_iff.mp hs with e | hs
          · exact ⟨k, e ▸ hk⟩
          · have hq0 : q ≠ [] := by rintro rfl; exact absurd (List.suffix_nil.mp hs) (h0 i hi)
            exact ihq _ (ht.parents m q k hk hq0) hs
      obtain ⟨k, hk⟩ := key e.1 e.2 he hs
      have : k = .dir := by
        cases k with
        | file => exact absurd hk (hd i hi)
        | dir => rfl
        | link t => exact absurd hk (hl i hi _ List.suffix_rfl t)
      subst this
      exact ⟨root i, List.mem_reverse.mpr ((hmem _).mpr ⟨i, hi, rfl, hk⟩), hs⟩
  exact fun fuel hf => clearLoop_ok fuel fs _ hinv (by omega)

/-- Then a second call finds nothing to do. -/
theorem C113_again {version : Nat} {root : Nat → Path} {fs : FS} (h : ∀ i ≤ version, ∀ k, (root i, k) ∉ fs) (hl : ∀ i ≤ version, NoLinks fs (root i)) : clearAll 1 version root fs = some (fs, none) := by
  have : ((List.range (version + 1)).map root).filter (pathExists fs) = [] := by
    rw [List.filter_eq_nil_iff]
    intro s hs he
    obtain ⟨i, hi, rfl⟩ := List.mem_map.mp hs
    have hi' : i ≤ version := by rw [List.mem_range] at hi; omega
    simp only [pathExists, kindAt, resolve_eq (hl i hi')] at he
    obtain ⟨k, hk⟩ := Option.isSome_iff_exists.mp he
    exact h i hi' k (Cache.mem_of_dget hk)
  simp only [clearAll, this]
  rfl

namespace Demo

/-- The directories of versions 0 and 1 of the cache, files in it, and a file next to it. -/
def home : FS := [(["share"], .dir), (["busclique", "share"], .dir), (["1", "busclique", "share"], .dir), (["clique", "1", "busclique", "share"], .dir), (["x", "clique", "1", "busclique", "share"], .file), (["LRU", "1", "busclique", "share"], .file),
  (["0", "busclique", "share"], .dir), (["2", "busclique", "share"], .dir), (["y", "2", "busclique", "share"], .file), (["z", "share"], .file)]

/-- Directories of the versions. -/
def versions (i : Nat) : Path := [toString i, "busclique", "share"]

/-- A link in the cache to a directory elsewhere. -/
def linked : FS := [(["share"], .dir), (["busclique", "share"], .dir), (["1", "busclique", "share"], .dir), (["clique", "1", "busclique", "share"], .link ["photos"]), (["photos"], .dir), (["a", "photos"], .file)]

end Demo

example : clearAll 30 1 Demo.versions Demo.home = some ([(["share"], .dir), (["busclique", "share"], .dir), (["2", "busclique", "share"], .dir), (["y", "2", "busclique", "share"], .file), (["z", "share"], .file)], none) := by decide +kernel

/-- The hypotheses of `C113_clear_partial` hold. -/
example : Tree Demo.home ∧ (∀ i ≤ 1, Demo.versions i ≠ []) ∧ (∀ i ≤ 1, ∀ j ≤ 1, i ≠ j → ¬ Demo.versions i <:+ Demo.versions j) ∧ (∀ i ≤ 1, (Demo.versions i, Kind.file) ∉ Demo.home) ∧ (∀ i ≤ 1, NoLinks Demo.home (Demo.versions i)) ∧
    (∀ p t, (p, Kind.link t) ∈ Demo.home → Below 1 Demo.versions p → (t, Kind.dir) ∉ Demo.home) := by
  have nl : ∀ p t, (p, Kind.link t) ∉ Demo.home := by
    intro p t h
    simp [Demo.home] at h
  refine ⟨⟨by decide +kernel, fun n p k h hp => ?_⟩, fun i _ => by simp [Demo.versions], by decide +kernel, by decide +kernel, fun i _ q _ t => nl q t, fun p t h => absurd h (nl p t)⟩
  have : ∀ e ∈ Demo.home, e.1.tail ≠ [] → (e.1.tail, Kind.dir) ∈ Demo.home := by decide +kernel
  exact this _ h hp

/-- C113, a fault: a link in the cache to a directory elsewhere is followed. The files there are deleted, and then the call fails. -/
theorem C113_follows_links : Tree Demo.linked ∧ ¬ Below 1 Demo.versions ["a", "photos"] ∧ (["a", "photos"], Kind.file) ∈ Demo.linked ∧
    clearAll 30 1 Demo.versions Demo.linked = some ([(["share"], .dir), (["busclique", "share"], .dir), (["1", "busclique", "share"], .dir), (["clique", "1", "busclique", "share"], .link ["photos"]), (["photos"], .dir)], some .notDir) := by
  refine ⟨⟨by decide +kernel, fun n p k h hp => ?_⟩, ?_, by decide +kernel, by decide +kernel⟩
  · have : ∀ e ∈ Demo.linked, e.1.tail ≠ [] → (e.1.tail, Kind.dir) ∈ Demo.linked := by decide +kernel
    exact this _ h hp
  · rintro ⟨i, _, hs⟩
    have := hs.length_le
    simp [Demo.versions] at this

end MM
