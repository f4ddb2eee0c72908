import Verif.Cache.Disk

/-! What holds of the cache on disk between operations. -/

namespace MM
namespace Disk

open Cache

variable {C I V : Type} [DecidableEq C] [DecidableEq I]

/-- Different names are different files, and new files are new. -/
structure WF (d : Dir C I V) : Prop where
  inj : ∀ n m i, d.name n = some i → d.name m = some i → n = m
  fresh : ∀ n i, d.name n = some i → i < d.next

/-- What is in the file with a name. -/
def Dir.look (d : Dir C I V) (n : Name C) : Option (Data C I V) := (d.name n).map d.data

theorem look_some {d : Dir C I V} {n : Name C} {x : Data C I V} (h : d.look n = some x) : ∃ i, d.name n = some i ∧ d.data i = x := by
  simpa [Dir.look] using h

theorem look_none {d : Dir C I V} {n : Name C} : d.look n = none ↔ d.name n = none := by simp [Dir.look]

theorem look_empty (n : Name C) : (Dir.empty : Dir C I V).look n = none := rfl

theorem wf_empty : WF (Dir.empty : Dir C I V) := ⟨fun _ _ _ h => (by cases h), fun _ _ h => (by cases h)⟩

theorem run_load (d : Dir C I V) (n : Name C) : run d (.load n) = (d, match d.look n with
    | none => .missing
    | some x => .data x) := by
  simp only [run, Dir.look]
  cases d.name n <;> rfl

theorem run_openW {d : Dir C I V} (h : WF d) (n : Name C) : ∃ i d', run d (.openW n) = (d', .opened i) ∧ WF d' ∧ d'.name n = some i ∧ ∀ m, d'.look m = if m = n then some .torn else d.look m := by
  cases hn : d.name n with
  | none =>
    refine ⟨d.next, _, by simp only [run, hn]; rfl, ⟨?_, ?_⟩, ?_, ?_⟩
    · intro a b i
      simp only [Dir.fill, Dir.bind]
      split <;> split <;> intro h1 h2
      · rename_i e1 e2; rw [e1, e2]
      · cases h1; have := h.fresh _ _ h2; omega
      · cases h2; have := h.fresh _ _ h1; omega
      · exact h.inj a b i h1 h2
    · intro a i
      simp only [Dir.fill, Dir.bind]
      split <;> intro h1
      · cases h1; omega
      · have := h.fresh _ _ h1; omega
    · simp [Dir.fill, Dir.bind]
    · intro m
      simp only [Dir.look, Dir.fill, Dir.bind]
      by_cases hm : m = n
      · simp [hm]
      · simp only [if_neg hm]
        cases hd : d.name m with
        | none => rfl
        | some i =>
          have := h.fresh _ _ hd
          simp only [Option.map_some]
          rw [if_neg (by omega)]
  | some i =>
    refine ⟨i, d.fill i .torn, by simp only [run, hn], ⟨h.inj, h.fresh⟩, hn, ?_⟩
    intro m
    simp only [Dir.look, Dir.fill]
    by_cases hm : m = n
    · simp [hm, hn]
    · simp only [if_neg hm]
      cases hd : d.name m with
      | none => rfl
      | some j =>
        simp only [Option.map_some]
        rw [if_neg]
        rintro rfl
        exact hm (h.inj m n j hd hn)

theorem run_write {d : Dir C I V} (h : WF d) {n : Name C} {i : Nat} (hn : d.name n = some i) (x : Data C I V) : ∃ d', run d (.write i x) = (d', .ok) ∧ WF d' ∧ ∀ m, d'.look m = if m = n then some x else d.look m := by
  refine ⟨_, rfl, ⟨h.inj, h.fresh⟩, ?_⟩
  intro m
  simp only [Dir.look, Dir.fill]
  by_cases hm : m = n
  · simp [hm, hn]
  · simp only [if_neg hm]
    cases hd : d.name m with
    | none => rfl
    | some j =>
      simp only [Option.map_some]
      rw [if_neg]
      rintro rfl
      exact hm (h.inj m n j hd hn)

theorem run_remove {d : Dir C I V} (h : WF d) {n : Name C} {x : Data C I V} (hn : d.look n = some x) : ∃ d', run d (.remove n) = (d', .ok) ∧ WF d' ∧ ∀ m, d'.look m = if m = n then none else d.look m := by
  obtain ⟨i, hi, _⟩ := look_some hn
  refine ⟨d.bind n none, by simp only [run, hi], ⟨?_, ?_⟩, ?_⟩
  · intro a b j
    simp only [Dir.bind]
    split
    · intro h1; cases h1
    · split
      · intro _ h2; cases h2
      · exact h.inj a b j
  · intro a j
    simp only [Dir.bind]
    split
    · intro h1; cases h1
    · exact h.fresh a j
  · intro m
    simp only [Dir.look, Dir.bind]
    split <;> rfl

theorem run_remove_missing {d : Dir C I V} {n : Name C} (hn : d.look n = none) : run d (.remove n) = (d, .missing) := by
  rw [look_none] at hn
  simp only [run, hn]

theorem run_replace {d : Dir C I V} (h : WF d) {src dst : Name C} (hne : src ≠ dst) {x : Data C I V} (hs : d.look src = some x) :
    ∃ d', run d (.replace src dst) = (d', .ok) ∧ WF d' ∧ ∀ m, d'.look m = if m = dst then some x else if m = src then none else d.look m := by
  obtain ⟨i, hi, hx⟩ := look_some hs
  refine ⟨(d.bind src none).bind dst (some i), by simp only [run, hi], ⟨?_, ?_⟩, ?_⟩
  · have key : ∀ a j, ((d.bind src none).bind dst (some i)).name a = some j → (a = dst ∧ j = i) ∨ (a ≠ src ∧ d.name a = some j) := by
      intro a j
      simp only [Dir.bind]
      split
      · rename_i e; intro h1; cases h1; exact .inl ⟨e, rfl⟩
      · split
        · intro h1; cases h1
        · rename_i e; intro h1; exact .inr ⟨e, h1⟩
    intro a b j h1 h2
    rcases key a j h1 with ⟨ha, hj⟩ | ⟨ha, hja⟩ <;> rcases key b j h2 with ⟨hb, hj'⟩ | ⟨hb, hjb⟩
    · rw [ha, hb]
    · subst hj; exact absurd (h.inj _ _ _ hjb hi) hb
    · subst hj'; exact absurd (h.inj _ _ _ hja hi) ha
    · exact h.inj _ _ _ hja hjb
  · intro a j
    simp only [Dir.bind]
    split
    · intro h1; cases h1; exact h.fresh _ _ hi
    · split
      · intro h1; cases h1
      · exact h.fresh a j
  · intro m
    simp only [Dir.look, Dir.bind]
    split
    · simp [hx]
    · split <;> rfl

/-- The directory is in order: the list of codes, if there is one, is whole, has no repetitions and at most `limit` codes, each of which has its file; all files of codes are whole, and what they hold satisfies `P`. -/
structure Sound (limit : Nat) (P : C → I → V → Prop) (d : Dir C I V) : Prop where
  wf : WF d
  codes : d.look .lru = none ∨ ∃ l, d.look .lru = some (.codes l) ∧ l.Nodup ∧ l.length ≤ limit ∧ ∀ c ∈ l, d.look (.file c) ≠ none
  files : ∀ c x, d.look (.file c) = some x → ∃ m, x = .caches m ∧ ∀ e ∈ m, P c e.1 e.2

theorem sound_empty (limit : Nat) (P : C → I → V → Prop) : Sound limit P (Dir.empty : Dir C I V) := ⟨wf_empty, .inl rfl, fun _ _ h => (by cases h)⟩

/-- Only temporary files have changed. -/
theorem Sound.temp {limit : Nat} {P : C → I → V → Prop} {d d' : Dir C I V} (h : Sound limit P d) (hw : WF d') (hl : d'.look .lru = d.look .lru) (hf : ∀ c, d'.look (.file c) = d.look (.file c)) : Sound limit P d' := by
  refine ⟨hw, ?_, ?_⟩
  · rw [hl]
    rcases h.codes with h0 | ⟨l, h1, h2, h3, h4⟩
    · exact .inl h0
    · exact .inr ⟨l, h1, h2, h3, fun c hc => by rw [hf]; exact h4 c hc⟩
  · intro c x hx
    rw [hf] at hx
    exact h.files c x hx

section Good

variable (limit : Nat) (P : C → I → V → Prop) (r : Req C I V)

/-- What is left of a call, when nobody else changes the directory, ends as it should, and leaves the directory in order at each point at which it may be killed: at any point, if it has not removed a file (`b`). -/
def Good (held b : Bool) : Prog C I V → Dir C I V → Prop
  | .ret v, d => held = false ∧ P r.code r.id v ∧ Sound limit P d
  | .raise e, d => held = false ∧ (e = .compute ∧ r.compute = none) ∧ Sound limit P d
  | .op .acquire _, _ => False
  | .op .release k, d => held = true ∧ (b = false → Sound limit P d) ∧ Good false b (k .ok) d
  | .op (.replace s t) k, d => held = false ∧ (b = false → Sound limit P d) ∧ Good false b (k (run d (.replace s t)).2) (run d (.replace s t)).1
  | .op (.remove n) k, d => held = true ∧ (b = false → Sound limit P d) ∧ Good true true (k (run d (.remove n)).2) (run d (.remove n)).1
  | .op (.load n) k, d => held = true ∧ (b = false → Sound limit P d) ∧ Good true b (k (run d (.load n)).2) (run d (.load n)).1
  | .op (.openW n) k, d => held = true ∧ (b = false → Sound limit P d) ∧ Good true b (k (run d (.openW n)).2) (run d (.openW n)).1
  | .op (.write i x) k, d => held = true ∧ (b = false → Sound limit P d) ∧ Good true b (k (run d (.write i x)).2) (run d (.write i x)).1

variable {limit P r}

/-- What is known of the directory after a removal: the files are as they should be, but the list may name files that are not there. -/
def Files (P : C → I → V → Prop) (d : Dir C I V) : Prop := ∀ c x, d.look (.file c) = some x → ∃ m, x = .caches m ∧ ∀ e ∈ m, P c e.1 e.2

theorem good_lru {b : Bool} {d : Dir C I V} {v : V} {l : List C} (hv : P r.code r.id v) (hw : WF d) (hs : b = false → Sound limit P d) (hf : Files P d) (hl : d.look .lruTmp = some (.codes l)) (hn : l.Nodup) (hlen : l.length ≤ limit)
    (hall : ∀ c ∈ l, d.look (.file c) ≠ none) : Good limit P r false b (replaceThen .lruTmp .lru (.ret v)) d := by
  obtain ⟨d', e1, w1, k1⟩ := run_replace hw (src := .lruTmp) (dst := .lru) (by simp) hl
  refine ⟨rfl, hs, ?_⟩
  rw [e1]
  refine ⟨rfl, hv, w1, .inr ⟨l, by rw [k1]; simp, hn, hlen, ?_⟩, ?_⟩
  · intro c hc; rw [k1]; simpa using hall c hc
  · intro c x; rw [k1]; simpa using hf c x

/-- What the call has written to its temporary file, or has found on disk. -/
def Wrote (P : C → I → V → Prop) (r : Req C I V) (wrote : Bool) (d : Dir C I V) : Prop :=
  (wrote = true → ∃ m, d.look (.fileTmp r.code) = some (.caches m) ∧ ∀ e ∈ m, P r.code e.1 e.2) ∧ (wrote = false → d.look (.file r.code) ≠ none)

theorem good_close {b wrote : Bool} {d : Dir C I V} {v : V} {l : List C} (hv : P r.code r.id v) (hw : WF d) (hs : b = false → Sound limit P d) (hf : Files P d) (hwr : Wrote P r wrote d) (hl : d.look .lruTmp = some (.codes l)) (hn : l.Nodup)
    (hlen : l.length ≤ limit) (hall : ∀ c ∈ l, c ≠ r.code → d.look (.file c) ≠ none) : Good limit P r false b (close r v wrote) d := by
  cases wrote with
  | false =>
    refine good_lru hv hw hs hf hl hn hlen ?_
    intro c hc
    by_cases e : c = r.code
    · rw [e]; exact hwr.2 rfl
    · exact hall c hc e
  | true =>
    obtain ⟨m, hm, hP⟩ := hwr.1 rfl
    obtain ⟨d', e1, w1, k1⟩ := run_replace hw (src := .fileTmp r.code) (dst := .file r.code) (by simp) hm
    refine ⟨rfl, hs, ?_⟩
    rw [e1]
    have hfile : ∀ c, d'.look (.file c) = if c = r.code then some (.caches m) else d.look (.file c) := by
      intro c; rw [k1]; simp
    have hf' : Files P d' := by
      intro c x hx
      rw [hfile] at hx
      split at hx
      · rename_i hc
        cases hx; subst hc; exact ⟨m, rfl, hP⟩
      · exact hf c x hx
    have hl' : d'.look .lruTmp = some (.codes l) := by rw [k1]; simpa using hl
    refine good_lru hv w1 ?_ hf' hl' hn hlen ?_
    · intro hb
      refine ⟨w1, ?_, hf'⟩
      have : d'.look .lru = d.look .lru := by rw [k1]; simp
      rw [this]
      rcases (hs hb).codes with h0 | ⟨l', h1, h2, h3, h4⟩
      · exact .inl h0
      · refine .inr ⟨l', h1, h2, h3, fun c hc => ?_⟩
        rw [hfile]
        split
        · simp
        · exact h4 c hc
    · intro c hc
      rw [hfile]
      split
      · simp
      · rename_i e; exact hall c hc e

theorem good_writeLru {b wrote : Bool} {d : Dir C I V} {v : V} {l : List C} (hv : P r.code r.id v) (hw : WF d) (hs : b = false → Sound limit P d) (hf : Files P d) (hwr : Wrote P r wrote d) (hn : l.Nodup)
    (hlen : l.length ≤ limit) (hall : ∀ c ∈ l, c ≠ r.code → d.look (.file c) ≠ none) : Good limit P r true b (writeLru r v wrote l) d := by
  obtain ⟨i, d1, e1, w1, n1, k1⟩ := run_openW hw .lruTmp
  have hs1 : b = false → Sound limit P d1 := fun hb => (hs hb).temp w1 (by rw [k1]; simp) (fun c => by rw [k1]; simp)
  refine ⟨rfl, hs, ?_⟩
  rw [e1]
  obtain ⟨d2, e2, w2, k2⟩ := run_write w1 n1 (.codes l)
  have hs2 : b = false → Sound limit P d2 := fun hb => (hs1 hb).temp w2 (by rw [k2]; simp) (fun c => by rw [k2]; simp)
  have k : ∀ m, m ≠ .lruTmp → d2.look m = d.look m := fun m hm => by rw [k2, if_neg hm, k1, if_neg hm]
  refine ⟨rfl, hs1, ?_⟩
  rw [e2]
  refine ⟨rfl, hs2, good_close hv w2 hs2 ?_ ?_ (by rw [k2]; simp) hn hlen ?_⟩
  · intro c x; rw [k _ (by simp)]; exact hf c x
  · refine ⟨fun h => ?_, fun h => ?_⟩
    · rw [k _ (by simp)]; exact hwr.1 h
    · rw [k _ (by simp)]; exact hwr.2 h
  · intro c hc; rw [k _ (by simp)]; exact hall c hc

theorem good_trim {wrote : Bool} {v : V} (hv : P r.code r.id v) (hlim : 0 < limit) {l : List C} : ∀ {b : Bool} {d : Dir C I V}, WF d → (b = false → Sound limit P d) → Files P d → Wrote P r wrote d → (r.code :: l.reverse).Nodup →
    (∀ c ∈ l, d.look (.file c) ≠ none) → Good limit P r true b (trim limit r v wrote (l ++ [r.code])) d := by
  induction l with
  | nil =>
    intro b d hw hs hf hwr hn hall
    simp only [List.nil_append, trim, List.length_cons, List.length_nil]
    rw [if_neg (by omega)]
    exact good_writeLru hv hw hs hf hwr (by simp) hlim (by simp)
  | cons c l ih =>
    intro b d hw hs hf hwr hn hall
    simp only [List.cons_append, trim]
    have hn' : (r.code :: l.reverse).Nodup ∧ c ∉ l ∧ c ≠ r.code := by
      rw [List.reverse_cons, List.nodup_cons, List.nodup_append] at hn
      simp only [List.mem_append, List.mem_reverse, List.mem_singleton, not_or] at hn
      refine ⟨?_, ?_, fun e => hn.1.2 e.symm⟩
      · rw [List.nodup_cons]; exact ⟨by simpa using hn.1.1, hn.2.1⟩
      · intro hc; exact hn.2.2.2 c hc c rfl rfl
    split
    · cases hx : d.look (.file c) with
      | none => exact absurd hx (hall c List.mem_cons_self)
      | some x =>
        obtain ⟨d', e1, w1, k1⟩ := run_remove hw hx
        refine ⟨rfl, hs, ?_⟩
        rw [e1]
        refine ih w1 (fun h => (by cases h)) ?_ ?_ hn'.1 ?_
        · intro a y; rw [k1]; split
          · intro h; cases h
          · exact hf a y
        · refine ⟨fun h => ?_, fun h => ?_⟩
          · rw [k1, if_neg (by simp)]; exact hwr.1 h
          · rw [k1, if_neg (by simp [hn'.2.2.symm])]; exact hwr.2 h
        · intro a ha
          rw [k1, if_neg]
          · exact hall a (List.mem_cons_of_mem _ ha)
          · rintro ⟨⟩; exact hn'.2.1 ha
    · rename_i hlen
      refine good_writeLru hv hw hs hf hwr ?_ (by rw [List.length_reverse]; omega) ?_
      · rw [List.reverse_cons, List.reverse_append]; exact (hn.perm (by simp))
      · intro a ha hne
        have : a ∈ c :: l := by simpa [hne, or_comm] using ha
        exact hall a this

theorem good_updateLru {wrote : Bool} {d : Dir C I V} {v : V} (hv : P r.code r.id v) (hlim : 0 < limit) (hs : Sound limit P d) (hwr : Wrote P r wrote d) : Good limit P r true false (updateLru limit r v wrote) d := by
  refine ⟨rfl, fun _ => hs, ?_⟩
  rw [run_load]
  rcases hs.codes with h0 | ⟨l, h1, h2, _, h4⟩
  · rw [h0]
    exact good_trim (l := []) hv hlim hs.wf (fun _ => hs) hs.files hwr (by simp) (by simp)
  · rw [h1]
    show Good limit P r true false (trim limit r v wrote (touch r.code l).reverse) d
    rw [touch, List.reverse_cons]
    refine good_trim hv hlim hs.wf (fun _ => hs) hs.files hwr ?_ ?_
    · rw [List.reverse_reverse, List.nodup_cons]
      exact ⟨by simp, h2.filter _⟩
    · intro c hc
      rw [List.mem_reverse, List.mem_filter] at hc
      exact h4 c hc.1

theorem dset_all {P : I → V → Prop} {m : Dict I V} (hm : ∀ e ∈ m, P e.1 e.2) {i : I} {v : V} (hv : P i v) : ∀ e ∈ dset m i v, P e.1 e.2 := by
  induction m with
  | nil => simpa [dset] using hv
  | cons p m ih =>
    obtain ⟨a, b⟩ := p
    simp only [List.forall_mem_cons] at hm
    rw [dset]
    split
    · rw [List.forall_mem_cons]; exact ⟨hv, hm.2⟩
    · rw [List.forall_mem_cons]; exact ⟨hm.1, ih hm.2⟩

theorem good_lookup (hlim : 0 < limit) (hP : ∀ v, r.compute = some v → P r.code r.id v) {d : Dir C I V} (hs : Sound limit P d) {m : Dict I V} (hm : ∀ e ∈ m, P r.code e.1 e.2) (hd : d.look (.file r.code) = some (.caches m) ∨ m = []) :
    Good limit P r true false (lookup limit r m) d := by
  rw [lookup]
  split
  · rename_i v hv
    split at hv
    · cases hv
    · have hmem := mem_of_dget hv
      refine good_updateLru (hm _ hmem) hlim hs ⟨fun h => (by cases h), fun _ => ?_⟩
      rcases hd with h | h
      · rw [h]; simp
      · rw [h] at hmem; cases hmem
  · cases hc : r.compute with
    | none => exact ⟨rfl, fun _ => hs, rfl, ⟨rfl, hc⟩, hs⟩
    | some v =>
      obtain ⟨i, d1, e1, w1, n1, k1⟩ := run_openW hs.wf (.fileTmp r.code)
      have hs1 : Sound limit P d1 := hs.temp w1 (by rw [k1]; simp) (fun c => by rw [k1]; simp)
      refine ⟨rfl, fun _ => hs, ?_⟩
      rw [e1]
      obtain ⟨d2, e2, w2, k2⟩ := run_write w1 n1 (.caches (dset m r.id v))
      have hs2 : Sound limit P d2 := hs1.temp w2 (by rw [k2]; simp) (fun c => by rw [k2]; simp)
      refine ⟨rfl, fun _ => hs1, ?_⟩
      rw [e2]
      refine good_updateLru (hP v hc) hlim hs2 ⟨fun _ => ⟨_, by rw [k2]; simp; rfl, ?_⟩, fun h => (by cases h)⟩
      exact dset_all hm (hP v hc)

theorem good_body (hlim : 0 < limit) (hP : ∀ v, r.compute = some v → P r.code r.id v) {d : Dir C I V} (hs : Sound limit P d) : ∃ k, fetch limit r = .op .acquire k ∧ Good limit P r true false (k .ok) d := by
  refine ⟨_, rfl, rfl, fun _ => hs, ?_⟩
  rw [run_load]
  cases h : d.look (.file r.code) with
  | none => exact good_lookup hlim hP hs (by simp) (.inr rfl)
  | some x =>
    obtain ⟨m, rfl, hm⟩ := hs.files _ _ h
    exact good_lookup hlim hP hs hm (.inl h)

end Good

end Disk
end MM
