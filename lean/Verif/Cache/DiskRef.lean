import Verif.Cache.DiskSys
import Mathlib.Data.List.Dedup

/-! Calls one after another: the directory is a store of caches by code, the last used first. -/

namespace MM
namespace Disk

open Cache

variable {C I V : Type} [DecidableEq C] [DecidableEq I]

/-- The caches by code, the last used first. -/
abbrev Store (C I V : Type) := List (C × Dict I V)

/-- The caches that the store has for a code. -/
def held (st : Store C I V) (c : C) : Dict I V :=
  match dget st c with
  | some m => m
  | none => []

/-- The store with the caches of `c` first, the oldest dropped. -/
def keep (limit : Nat) (st : Store C I V) (c : C) (m : Dict I V) : Store C I V := ((c, m) :: st.filter fun e => decide (e.1 ≠ c)).take limit

/-- What a call should do: take the cache from the store, or compute and keep it. -/
def serve (limit : Nat) (st : Store C I V) (r : Req C I V) : Except Exn V × Store C I V :=
  match (if r.force then none else dget (held st r.code) r.id) with
  | some v => (.ok v, keep limit st r.code (held st r.code))
  | none =>
    match r.compute with
    | some v => (.ok v, keep limit st r.code (dset (held st r.code) r.id v))
    | none => (.error .compute, st)

/-- One after another. -/
def serveAll (limit : Nat) : Store C I V → List (Req C I V) → List (Except Exn V) × Store C I V
  | st, [] => ([], st)
  | st, r :: rs => ((serve limit st r).1 :: (serveAll limit (serve limit st r).2 rs).1, (serveAll limit (serve limit st r).2 rs).2)

/-- The directory holds the store: the list of codes in order, a file for each of them with its caches, and no other file of a code. -/
structure Holds (limit : Nat) (st : Store C I V) (d : Dir C I V) : Prop where
  wf : WF d
  codes : d.look .lru = some (.codes (st.map Prod.fst)) ∨ (d.look .lru = none ∧ st = [])
  nodup : (st.map Prod.fst).Nodup
  len : st.length ≤ limit
  files : ∀ c, d.look (.file c) = (dget st c).map .caches

theorem holds_empty (limit : Nat) : Holds limit ([] : Store C I V) Dir.empty := ⟨wf_empty, .inr ⟨rfl, rfl⟩, by simp, by simp, fun _ => rfl⟩

theorem exec_close {r : Req C I V} {v : V} {wrote : Bool} {d : Dir C I V} (hw : WF d) {l : List C} (hl : d.look .lruTmp = some (.codes l)) {m : Dict I V} (hm : d.look (if wrote then .fileTmp r.code else .file r.code) = some (.caches m)) :
    ∃ d', exec (close r v wrote) d = (.ok v, d') ∧ WF d' ∧ d'.look .lru = some (.codes l) ∧ ∀ c, d'.look (.file c) = if c = r.code then some (.caches m) else d.look (.file c) := by
  cases wrote with
  | false =>
    obtain ⟨d1, e1, w1, k1⟩ := run_replace hw (src := .lruTmp) (dst := .lru) (by simp) hl
    refine ⟨d1, ?_, w1, by rw [k1]; simp, ?_⟩
    · simp only [close, replaceThen, exec, e1, Bool.false_eq_true, if_false]
    · intro c
      rw [k1]
      simp only [Bool.false_eq_true, if_false] at hm
      by_cases hc : c = r.code
      · subst hc; simpa using hm
      · simp [hc]
  | true =>
    obtain ⟨d0, e0, w0, k0⟩ := run_replace hw (src := .fileTmp r.code) (dst := .file r.code) (by simp) hm
    obtain ⟨d1, e1, w1, k1⟩ := run_replace w0 (src := .lruTmp) (dst := .lru) (by simp) (x := .codes l) (by rw [k0]; simpa using hl)
    refine ⟨d1, ?_, w1, by rw [k1]; simp, ?_⟩
    · simp only [close, replaceThen, exec, e0, e1, if_true]
    · intro c
      rw [k1]
      simp only [reduceCtorEq, if_false, k0, Name.file.injEq]

theorem exec_writeLru {r : Req C I V} {v : V} {wrote : Bool} {d : Dir C I V} (hw : WF d) (l : List C) :
    ∃ d', exec (writeLru r v wrote l) d = exec (close r v wrote) d' ∧ WF d' ∧ ∀ m, d'.look m = if m = .lruTmp then some (.codes l) else d.look m := by
  obtain ⟨i, d1, e1, w1, n1, k1⟩ := run_openW hw .lruTmp
  obtain ⟨d2, e2, w2, k2⟩ := run_write w1 n1 (.codes l)
  refine ⟨d2, ?_, w2, ?_⟩
  · simp only [writeLru, exec, e1, e2]
    rfl
  · intro m
    rw [k2]
    split
    · rfl
    · rename_i hm; rw [k1, if_neg hm]

theorem exec_trim {limit : Nat} {r : Req C I V} {v : V} {wrote : Bool} (l : List C) : ∀ {d : Dir C I V}, WF d → l.Nodup → (∀ c ∈ l.reverse.drop limit, d.look (.file c) ≠ none) →
    ∃ d', exec (trim limit r v wrote l) d = exec (close r v wrote) d' ∧ WF d' ∧ d'.look .lruTmp = some (.codes (l.reverse.take limit)) ∧
      (∀ c, d'.look (.file c) = if c ∈ l.reverse.drop limit then none else d.look (.file c)) ∧ ∀ c, d'.look (.fileTmp c) = d.look (.fileTmp c) := by
  induction l with
  | nil =>
    intro d hw _ _
    obtain ⟨d', e, w, k⟩ := exec_writeLru (r := r) (v := v) (wrote := wrote) hw []
    refine ⟨d', e, w, by rw [k]; simp, fun c => by rw [k]; simp, fun c => by rw [k]; simp⟩
  | cons c l ih =>
    intro d hw hn hall
    rw [trim]
    rw [List.nodup_cons] at hn
    split
    · rename_i hlen
      rw [List.length_cons] at hlen
      have hdrop : (c :: l).reverse.drop limit = l.reverse.drop limit ++ [c] := by
        rw [List.reverse_cons, List.drop_append_of_le_length (by rw [List.length_reverse]; omega)]
      have htake : (c :: l).reverse.take limit = l.reverse.take limit := by
        rw [List.reverse_cons, List.take_append_of_le_length (by rw [List.length_reverse]; omega)]
      rw [hdrop] at hall
      have hc := hall c (by simp)
      cases hx : d.look (.file c) with
      | none => exact absurd hx hc
      | some x =>
        obtain ⟨d1, e1, w1, k1⟩ := run_remove hw hx
        obtain ⟨d', e, w, h1, h2, h3⟩ := ih w1 hn.2 (by
          intro a ha
          rw [k1, if_neg]
          · exact hall a (by simp [ha])
          · rintro ⟨⟩
            exact hn.1 (List.mem_reverse.mp (List.mem_of_mem_drop ha)))
        refine ⟨d', ?_, w, by rw [htake]; exact h1, ?_, fun a => by rw [h3, k1, if_neg (by simp)]⟩
        · rw [exec, e1]; exact e
        · intro a
          rw [h2, hdrop, k1]
          by_cases ha : a ∈ l.reverse.drop limit
          · simp [ha]
          · by_cases hac : a = c <;> simp [ha, hac]
    · rename_i hlen
      obtain ⟨d', e, w, k⟩ := exec_writeLru (r := r) (v := v) (wrote := wrote) hw (c :: l).reverse
      have : (c :: l).reverse.drop limit = [] := List.drop_eq_nil_of_le (by rw [List.length_reverse]; omega)
      refine ⟨d', e, w, ?_, fun a => by rw [k, this]; simp, fun a => by rw [k]; simp⟩
      rw [k, if_pos rfl, List.take_of_length_le (by rw [List.length_reverse]; omega)]

theorem touch_keys (st : Store C I V) (c : C) (m : Dict I V) : touch c (st.map Prod.fst) = ((c, m) :: st.filter fun e => decide (e.1 ≠ c)).map Prod.fst := by
  rw [touch, List.map_cons, List.filter_map]
  rfl

theorem keep_keys (limit : Nat) (st : Store C I V) (c : C) (m : Dict I V) : (keep limit st c m).map Prod.fst = (touch c (st.map Prod.fst)).take limit := by
  rw [keep, List.map_take, ← touch_keys]

theorem dget_take_of_mem {κ β : Type} [DecidableEq κ] {l : Dict κ β} {n : Nat} {c : κ} (h : c ∈ (l.map Prod.fst).take n) : dget (l.take n) c = dget l c := by
  induction l generalizing n with
  | nil => simp
  | cons p l ih =>
    obtain ⟨a, b⟩ := p
    cases n with
    | zero => simp at h
    | succ n =>
      simp only [List.take_succ_cons, dget]
      split
      · rfl
      · rename_i hne
        refine ih ?_
        simp only [List.map_cons, List.take_succ_cons, List.mem_cons] at h
        rcases h with h | h
        · exact absurd h.symm hne
        · exact h

theorem dget_none {κ β : Type} [DecidableEq κ] {l : Dict κ β} {c : κ} (h : c ∉ l.map Prod.fst) : dget l c = none := by
  cases e : dget l c with
  | none => rfl
  | some x => exact absurd (dget_isSome.mp (by rw [e]; rfl)) h

theorem dget_filter_ne {κ β : Type} [DecidableEq κ] (l : Dict κ β) {a c : κ} (h : a ≠ c) : dget (l.filter fun e => decide (e.1 ≠ c)) a = dget l a := by
  induction l with
  | nil => rfl
  | cons p l ih =>
    obtain ⟨x, b⟩ := p
    by_cases hx : x = c
    · subst hx
      rw [List.filter_cons_of_neg (by simp), ih]
      simp only [dget]
      rw [if_neg (fun e => h e.symm)]
    · rw [List.filter_cons_of_pos (by simpa using hx)]
      simp only [dget, ih]

theorem touch_nodup {l : List C} (h : l.Nodup) (c : C) : (touch c l).Nodup := by
  rw [touch, List.nodup_cons]
  exact ⟨by simp, h.filter _⟩

/-- The rest of a call, when the caches for the code are `m`. -/
theorem exec_updateLru {limit : Nat} (hlim : 0 < limit) {st : Store C I V} {d : Dir C I V} (hd : Holds limit st d) {d1 : Dir C I V} (w1 : WF d1) (k1 : d1.look .lru = d.look .lru) (f1 : ∀ c, d1.look (.file c) = d.look (.file c))
    {r : Req C I V} {v : V} {wrote : Bool} {m : Dict I V} (hm : d1.look (if wrote then .fileTmp r.code else .file r.code) = some (.caches m)) :
    ∃ d', exec (updateLru limit r v wrote) d1 = (.ok v, d') ∧ Holds limit (keep limit st r.code m) d' := by
  have hstart : exec (updateLru limit r v wrote) d1 = exec (trim limit r v wrote (touch r.code (st.map Prod.fst)).reverse) d1 := by
    rw [updateLru, exec, run_load, k1]
    rcases hd.codes with h | ⟨h, hs⟩
    · rw [h]
    · rw [h, hs]; rfl
  have hnd := touch_nodup hd.nodup r.code
  have hdrop : ∀ c ∈ (touch r.code (st.map Prod.fst)).drop limit, c ≠ r.code ∧ c ∈ st.map Prod.fst := by
    intro c hc
    obtain ⟨n, rfl⟩ : ∃ n, limit = n + 1 := ⟨limit - 1, by omega⟩
    rw [touch, List.drop_succ_cons] at hc
    have := List.mem_of_mem_drop hc
    rw [List.mem_filter] at this
    exact ⟨by simpa using this.2, this.1⟩
  obtain ⟨d2, e2, w2, l2, f2, t2⟩ := exec_trim (limit := limit) (r := r) (v := v) (wrote := wrote) (touch r.code (st.map Prod.fst)).reverse w1 (List.nodup_reverse.mpr hnd) (by
    rw [List.reverse_reverse]
    intro c hc
    rw [f1, hd.files]
    have := dget_isSome.mpr (hdrop c hc).2
    cases e : dget st c with
    | none => rw [e] at this; cases this
    | some x => simp)
  rw [List.reverse_reverse] at l2 f2
  have hm2 : d2.look (if wrote then .fileTmp r.code else .file r.code) = some (.caches m) := by
    cases wrote with
    | true => simp only [if_true] at hm ⊢; rw [t2]; exact hm
    | false =>
      simp only [Bool.false_eq_true, if_false] at hm ⊢
      rw [f2, if_neg (fun h => (hdrop _ h).1 rfl)]; exact hm
  obtain ⟨d3, e3, w3, l3, f3⟩ := exec_close (v := v) w2 l2 hm2
  refine ⟨d3, by rw [hstart, e2, e3], w3, .inl (by rw [l3, keep_keys]), ?_, ?_, ?_⟩
  · rw [keep_keys]; exact hnd.sublist (List.take_sublist _ _)
  · rw [keep, List.length_take]; omega
  · intro c
    rw [f3, keep]
    by_cases hc : c = r.code
    · subst hc
      obtain ⟨n, rfl⟩ : ∃ n, limit = n + 1 := ⟨limit - 1, by omega⟩
      simp [dget]
    · rw [if_neg hc, f2, f1, hd.files]
      have hkeys := touch_keys st r.code m
      split
      · rename_i hcd
        have : c ∉ (touch r.code (st.map Prod.fst)).take limit := by
          intro h
          rw [← List.take_append_drop limit (touch r.code (st.map Prod.fst)), List.nodup_append] at hnd
          exact hnd.2.2 c h c hcd rfl
        rw [hkeys, ← List.map_take] at this
        rw [dget_none this]; rfl
      · rename_i hcd
        have hget : dget ((r.code, m) :: st.filter fun e => decide (e.1 ≠ r.code)) c = dget st c := by
          simp only [dget]
          rw [if_neg (fun e => hc e.symm), dget_filter_ne st hc]
        by_cases hin : c ∈ st.map Prod.fst
        · rw [dget_take_of_mem, hget]
          rw [← hkeys]
          have : c ∈ touch r.code (st.map Prod.fst) := by
            rw [touch, List.mem_cons, List.mem_filter]; exact .inr ⟨hin, by simpa using hc⟩
          rw [← List.take_append_drop limit (touch r.code (st.map Prod.fst)), List.mem_append] at this
          exact this.resolve_right hcd
        · rw [dget_none hin, dget_none]
          intro h
          rw [List.map_take] at h
          have := List.mem_of_mem_take h
          rw [← hkeys, touch, List.mem_cons, List.mem_filter] at this
          rcases this with h | h
          · exact hc h
          · exact hin h.1

/-- A call on its own does what it should do. -/
theorem exec_fetch {limit : Nat} (hlim : 0 < limit) {st : Store C I V} {d : Dir C I V} (hd : Holds limit st d) (r : Req C I V) :
    ∃ d', exec (fetch limit r) d = ((serve limit st r).1, d') ∧ Holds limit (serve limit st r).2 d' := by
  have hstart : exec (fetch limit r) d = exec (lookup limit r (held st r.code)) d := by
    rw [fetch, exec, run, exec, run_load, hd.files, held]
    cases dget st r.code <;> rfl
  rw [hstart, lookup, serve]
  cases hv : (if r.force then none else dget (held st r.code) r.id) with
  | some v =>
    simp only
    refine exec_updateLru hlim hd hd.wf rfl (fun _ => rfl) ?_
    simp only [Bool.false_eq_true, if_false]
    rw [hd.files]
    split at hv
    · cases hv
    · rw [held] at hv ⊢
      cases e : dget st r.code with
      | none => rw [e] at hv; cases hv
      | some m => rfl
  | none =>
    simp only
    cases hc : r.compute with
    | none => exact ⟨d, rfl, hd⟩
    | some v =>
      simp only
      obtain ⟨i, d1, e1, w1, n1, k1⟩ := run_openW hd.wf (.fileTmp r.code)
      obtain ⟨d2, e2, w2, k2⟩ := run_write w1 n1 (.caches (dset (held st r.code) r.id v))
      have := exec_updateLru hlim hd w2 (by rw [k2]; simp [k1]) (fun c => by rw [k2]; simp [k1]) (r := r) (v := v) (wrote := true) (m := dset (held st r.code) r.id v) (by rw [k2]; simp)
      obtain ⟨d', e, h⟩ := this
      refine ⟨d', ?_, h⟩
      rw [exec, e1, exec, e2]
      exact e

theorem execAll_holds {limit : Nat} (hlim : 0 < limit) {rs : List (Req C I V)} : ∀ {st : Store C I V} {d : Dir C I V}, Holds limit st d →
    (execAll limit rs d).1 = (serveAll limit st rs).1 ∧ Holds limit (serveAll limit st rs).2 (execAll limit rs d).2 := by
  induction rs with
  | nil => intro st d h; exact ⟨rfl, h⟩
  | cons r rs ih =>
    intro st d h
    obtain ⟨d', e, h'⟩ := exec_fetch hlim h r
    obtain ⟨h1, h2⟩ := ih h'
    simp only [execAll, serveAll, e]
    exact ⟨by rw [h1], h2⟩

/-- What the codes of the store are. -/
theorem serve_keys {limit : Nat} {st : Store C I V} {r : Req C I V} {v : V} (h : (serve limit st r).1 = .ok v) : (serve limit st r).2.map Prod.fst = (touch r.code (st.map Prod.fst)).take limit := by
  rw [serve] at h ⊢
  split
  · exact keep_keys _ _ _ _
  · rename_i hn
    rw [hn] at h
    cases hc : r.compute with
    | none => rw [hc] at h; cases h
    | some v => exact keep_keys _ _ _ _

theorem serve_ok {limit : Nat} {st : Store C I V} {r : Req C I V} (h : r.compute ≠ none) : ∃ v, (serve limit st r).1 = .ok v := by
  rw [serve]
  split
  · exact ⟨_, rfl⟩
  · cases hc : r.compute with
    | none => exact absurd hc h
    | some v => exact ⟨v, rfl⟩

/-- Truncation of the list of codes can be left to the end. -/
theorem touch_take (limit : Nat) (c : C) {l : List C} (hl : l.Nodup) : (touch c (l.take limit)).take limit = (touch c l).take limit := by
  cases limit with
  | zero => simp
  | succ n =>
    simp only [touch, List.take_succ_cons]
    congr 1
    induction l generalizing n with
    | nil => simp
    | cons a l ih =>
      rw [List.nodup_cons] at hl
      rw [List.take_succ_cons]
      by_cases h : a = c
      · subst h
        rw [List.filter_cons_of_neg (by simp), List.filter_cons_of_neg (by simp)]
        have h1 : ∀ m : List C, a ∉ m → m.filter (fun x => decide (x ≠ a)) = m := by
          intro m hm
          rw [List.filter_eq_self]
          intro x hx
          have : x ≠ a := by rintro rfl; exact hm hx
          simpa using this
        rw [h1 l hl.1, h1 (l.take n) (fun h => hl.1 (List.mem_of_mem_take h)), List.take_take, Nat.min_self]
      · rw [List.filter_cons_of_pos (by simpa using h), List.filter_cons_of_pos (by simpa using h)]
        cases n with
        | zero => simp
        | succ n => rw [List.take_succ_cons, List.take_succ_cons, ih hl.2 n]

/-- The codes in the order of their last use, the last used first. -/
theorem touch_dedup (h : List C) (c : C) : touch c h.dedup.reverse = (h ++ [c]).dedup.reverse := by
  have : (h ++ [c]).dedup = (h.dedup.filter fun x => decide (x ≠ c)) ++ [c] := by
    induction h with
    | nil => simp
    | cons a h ih =>
      rw [List.cons_append]
      by_cases ha : a ∈ h
      · rw [List.dedup_cons_of_mem (by simp [ha]), List.dedup_cons_of_mem ha, ih]
      · by_cases hc : a = c
        · subst hc
          rw [List.dedup_cons_of_mem (by simp), List.dedup_cons_of_notMem ha, ih, List.filter_cons_of_neg (by simp)]
        · rw [List.dedup_cons_of_notMem (by simp [ha, hc]), List.dedup_cons_of_notMem ha, ih, List.filter_cons_of_pos (by simpa using hc), List.cons_append]
  rw [this, List.reverse_append, touch, List.filter_reverse]
  rfl

theorem serveAll_keys {limit : Nat} {rs : List (Req C I V)} (hc : ∀ r ∈ rs, r.compute ≠ none) : ∀ {st : Store C I V} {h : List C}, st.map Prod.fst = h.dedup.reverse.take limit →
    (serveAll limit st rs).2.map Prod.fst = (h ++ rs.map Req.code).dedup.reverse.take limit := by
  induction rs with
  | nil => intro st h hst; simpa [serveAll] using hst
  | cons r rs ih =>
    intro st h hst
    rw [List.forall_mem_cons] at hc
    obtain ⟨v, hv⟩ := serve_ok (limit := limit) (st := st) hc.1
    have := ih hc.2 (st := (serve limit st r).2) (h := h ++ [r.code]) (by
      rw [serve_keys hv, hst, touch_take _ _ (List.nodup_reverse.mpr (List.nodup_dedup _)), touch_dedup])
    simpa [serveAll] using this

/-- A full store and a call for a new code that is killed when it has removed the oldest file: the list still names that file. -/
theorem killed_evicting {limit : Nat} {st : Store C I V} {d : Dir C I V} (hd : Holds limit st d) (hfull : st.length = limit) {front : List C} {c : C} (hst : st.map Prod.fst = front ++ [c]) {r : Req C I V} (hr : r.code ∉ st.map Prod.fst)
    (hc : r.compute ≠ none) : ∃ d', execN 6 (fetch limit r) d = d' ∧ WF d' ∧ d'.look .lru = some (.codes (front ++ [c])) ∧ d'.look (.file c) = none ∧ ∀ a x, d'.look (.file a) = some x → ∃ m, x = .caches m := by
  cases hcv : r.compute with
  | none => exact absurd hcv hc
  | some v =>
  have hlru : d.look .lru = some (.codes (front ++ [c])) := by
    rcases hd.codes with h | ⟨_, h⟩
    · rw [h, hst]
    · rw [h] at hst; simp at hst
  have hmiss : d.look (.file r.code) = none := by rw [hd.files, dget_none hr]; rfl
  have hforce : (if r.force then none else dget ([] : Dict I V) r.id) = none := by split <;> rfl
  obtain ⟨i, d1, e1, w1, n1, k1⟩ := run_openW hd.wf (.fileTmp r.code)
  obtain ⟨d2, e2, w2, k2⟩ := run_write w1 n1 (.caches (dset [] r.id v))
  have hl2 : d2.look .lru = some (.codes (front ++ [c])) := by rw [k2]; simp [k1, hlru]
  have hf2 : ∀ a, d2.look (.file a) = d.look (.file a) := fun a => by rw [k2]; simp [k1]
  have hcin : c ∈ st.map Prod.fst := by rw [hst]; simp
  have hfc : ∃ x, d2.look (.file c) = some x := by
    rw [hf2, hd.files]
    have := dget_isSome.mpr hcin
    cases e : dget st c with
    | none => rw [e] at this; cases this
    | some x => exact ⟨_, rfl⟩
  obtain ⟨x, hx⟩ := hfc
  obtain ⟨d3, e3, w3, k3⟩ := run_remove w2 hx
  have hlen : front.length + 1 = limit := by
    have := congrArg List.length hst
    rw [List.length_map, List.length_append] at this
    simp only [List.length_cons, List.length_nil] at this
    omega
  have htouch : (touch r.code (front ++ [c])).reverse = c :: (front.reverse ++ [r.code]) := by
    have : (front ++ [c]).filter (fun x => decide (x ≠ r.code)) = front ++ [c] := by
      rw [List.filter_eq_self]
      intro a ha
      have : a ≠ r.code := by rintro rfl; exact hr (by rw [hst]; exact ha)
      simpa using this
    rw [touch, this]
    simp
  refine ⟨d3, ?_, w3, by rw [k3]; simp [hl2], by rw [k3]; simp, ?_⟩
  · rw [fetch, execN, run, execN, run_load, hmiss]
    simp only [lookup, hforce, hcv]
    rw [execN, e1]
    simp only
    rw [execN, e2, updateLru, execN, run_load, hl2]
    simp only
    rw [htouch, trim, if_pos (by simp; omega), execN, e3]
    simp only
    rfl
  · intro a y
    rw [k3, hf2, hd.files]
    split
    · intro h; cases h
    · cases dget st a with
      | none => intro h; cases h
      | some m => intro h; cases h; exact ⟨m, rfl⟩

/-- The list names `limit` files, and the last of them is not there: calls for other codes fail and change nothing of that. -/
theorem exec_stuck {limit : Nat} {d : Dir C I V} (hw : WF d) {front : List C} {c : C} (hlru : d.look .lru = some (.codes (front ++ [c]))) (hlen : front.length + 1 = limit) (hmiss : d.look (.file c) = none)
    (hf : ∀ a x, d.look (.file a) = some x → ∃ m, x = .caches m) {r : Req C I V} (hr : r.code ∉ front ++ [c]) (hc : r.compute ≠ none) :
    ∃ d', exec (fetch limit r) d = (.error .notFound, d') ∧ WF d' ∧ d'.look .lru = some (.codes (front ++ [c])) ∧ d'.look (.file c) = none ∧ ∀ a x, d'.look (.file a) = some x → ∃ m, x = .caches m := by
  have htouch : (touch r.code (front ++ [c])).reverse = c :: (front.reverse ++ [r.code]) := by
    have : (front ++ [c]).filter (fun x => decide (x ≠ r.code)) = front ++ [c] := by
      rw [List.filter_eq_self]
      intro a ha
      have : a ≠ r.code := by rintro rfl; exact hr ha
      simpa using this
    rw [touch, this]
    simp
  have hupd : ∀ (d1 : Dir C I V) v wrote, d1.look .lru = some (.codes (front ++ [c])) → d1.look (.file c) = none → exec (updateLru limit r v wrote) d1 = (.error .notFound, d1) := by
    intro d1 v wrote h1 h2
    rw [updateLru, exec, run_load, h1]
    simp only
    rw [htouch, trim, if_pos (by simp; omega), exec, run_remove_missing h2]
    rfl
  have hlook : ∀ m, ∃ d', exec (lookup limit r m) d = (.error .notFound, d') ∧ WF d' ∧ d'.look .lru = some (.codes (front ++ [c])) ∧ d'.look (.file c) = none ∧ ∀ a x, d'.look (.file a) = some x → ∃ m, x = .caches m := by
    intro m
    rw [lookup]
    cases hv : (if r.force then none else dget m r.id) with
    | some v => exact ⟨d, hupd d v false hlru hmiss, hw, hlru, hmiss, hf⟩
    | none =>
      cases hcv : r.compute with
      | none => exact absurd hcv hc
      | some v =>
        simp only
        obtain ⟨i, d1, e1, w1, n1, k1⟩ := run_openW hw (.fileTmp r.code)
        obtain ⟨d2, e2, w2, k2⟩ := run_write w1 n1 (.caches (dset m r.id v))
        have hl2 : d2.look .lru = some (.codes (front ++ [c])) := by rw [k2]; simp [k1, hlru]
        have hf2 : ∀ a, d2.look (.file a) = d.look (.file a) := fun a => by rw [k2]; simp [k1]
        refine ⟨d2, ?_, w2, hl2, by rw [hf2, hmiss], fun a x => by rw [hf2]; exact hf a x⟩
        rw [exec, e1, exec, e2]
        exact hupd d2 v true hl2 (by rw [hf2, hmiss])
  rw [fetch, exec, run, exec, run_load]
  cases h : d.look (.file r.code) with
  | none => exact hlook []
  | some x =>
    obtain ⟨m, rfl⟩ := hf _ _ h
    exact hlook m

theorem execAll_stuck {limit : Nat} {front : List C} {c : C} (hlen : front.length + 1 = limit) {rs : List (Req C I V)} (hrs : ∀ r ∈ rs, r.code ∉ front ++ [c] ∧ r.compute ≠ none) : ∀ {d : Dir C I V}, WF d → d.look .lru = some (.codes (front ++ [c])) →
    d.look (.file c) = none → (∀ a x, d.look (.file a) = some x → ∃ m, x = .caches m) → ∀ x ∈ (execAll limit rs d).1, x = .error .notFound := by
  induction rs with
  | nil => intro d _ _ _ _ x hx; cases hx
  | cons r rs ih =>
    intro d hw h1 h2 h3 x hx
    rw [List.forall_mem_cons] at hrs
    obtain ⟨d', e, w', h1', h2', h3'⟩ := exec_stuck hw h1 hlen h2 h3 hrs.1.1 hrs.1.2
    simp only [execAll, e, List.mem_cons] at hx
    rcases hx with hx | hx
    · exact hx
    · exact ih hrs.2 w' h1' h2' h3' x hx

section
variable {limit : Nat} {P : C → I → V → Prop} {r : Req C I V}

/-- A call that runs alone to its end. -/
theorem good_exec {p : Prog C I V} : ∀ {hl b : Bool} {d : Dir C I V}, Good limit P r hl b p d → Sound limit P (exec p d).2 ∧ ((∃ v, (exec p d).1 = .ok v ∧ P r.code r.id v) ∨ ((exec p d).1 = .error .compute ∧ r.compute = none)) := by
  induction p with
  | ret v => intro hl b d h; exact ⟨h.2.2, .inl ⟨v, rfl, h.2.1⟩⟩
  | raise e => intro hl b d h; obtain ⟨_, ⟨h1, h2⟩, h3⟩ := h; subst h1; exact ⟨h3, .inr ⟨rfl, h2⟩⟩
  | op o k ih =>
    intro hl b d h
    cases o with
    | acquire => exact h.elim
    | _ => exact ih _ h.2.2

/-- `os.remove`. -/
def Op.isRemove : Op C I V → Bool
  | .remove _ => true
  | _ => false

/-- Whether a file is removed in the first `n` operations. -/
def evicts : Nat → Prog C I V → Dir C I V → Bool
  | n + 1, .op o k, d => o.isRemove || evicts n (k (run d o).2) (run d o).1
  | _, _, _ => false

theorem good_execN {n : Nat} : ∀ {p : Prog C I V} {hl : Bool} {d : Dir C I V}, Good limit P r hl false p d → evicts n p d = false → Sound limit P (execN n p d) := by
  induction n with
  | zero =>
    intro p hl d h _
    cases p with
    | ret v => exact h.2.2
    | raise e => exact h.2.2
    | op o k =>
      rw [execN]
      · cases o with
        | acquire => exact h.elim
        | _ => exact h.2.1 rfl
      all_goals simp
  | succ n ih =>
    intro p hl d h he
    cases p with
    | ret v => exact h.2.2
    | raise e => exact h.2.2
    | op o k =>
      rw [execN]
      rw [evicts, Bool.or_eq_false_iff] at he
      cases o with
      | acquire => exact h.elim
      | remove n => exact absurd he.1 (by simp [Op.isRemove])
      | _ => exact ih h.2.2 he.2

end

end Disk
end MM
