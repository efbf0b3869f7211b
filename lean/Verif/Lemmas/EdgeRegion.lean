import Verif.Lemmas.EdgeList

/-!
# The loops of pass 1 and pass 2 over a region
-/

namespace Pigo

variable {W : Type} {μ : Mapping} {e : Nat}

/-- A line as classified by `ent`: blank or carrying an entry. -/
def EntOk (lw : Nat) (wk : WKind W) (ent : List Byte → Option (Nat × Nat × W)) (l : List Byte) : Prop :=
  nl ∉ l ∧ match ent l with
    | none => firstIntL l = []
    | some en => LineLaw lw wk l en

/-- Number of stored entries. -/
def total (cfg : Cfg) (es : List (Nat × Nat × W)) : Nat := (es.flatMap (storedC cfg)).length

@[simp] theorem total_nil (cfg : Cfg) : total cfg ([] : List (Nat × Nat × W)) = 0 := rfl
theorem total_cons (cfg : Cfg) (en : Nat × Nat × W) (es) :
    total cfg (en :: es) = (storedC cfg en).length + total cfg es := by simp [total]
theorem total_append (cfg : Cfg) (a b : List (Nat × Nat × W)) :
    total cfg (a ++ b) = total cfg a + total cfg b := by simp [total]

section
variable {lw : Nat} {wk : WKind W} {ent : List Byte → Option (Nat × Nat × W)} {g : List Byte}

theorem region_blank {l : List Byte} {ls : List (List Byte)} (hl : EntOk lw wk ent l) (h : ent l = none) :
    firstIntL (text (l :: ls) ++ g) = firstIntL (text ls ++ g) := by
  have h1 := hl.2
  rw [h] at h1
  rw [text_cons, List.append_assoc, List.cons_append]
  unfold firstIntL
  rw [toStop_line _ isDigit_nl l _ hl.1, if_pos h1]

theorem region_entry {l : List Byte} {ls : List (List Byte)} {en} (hl : EntOk lw wk ent l) (h : ent l = some en) :
    firstIntL (text (l :: ls) ++ g) = firstIntL l ++ nl :: (text ls ++ g) := by
  have h1 := hl.2
  rw [h] at h1
  rw [text_cons, List.append_assoc, List.cons_append]
  unfold firstIntL
  rw [toStop_line _ isDigit_nl l _ hl.1, if_neg h1.hx]

theorem region_nil_iff (ls : List (List Byte)) (hls : ∀ l ∈ ls, EntOk lw wk ent l) (hg : firstIntL g = []) :
    firstIntL (text ls ++ g) = [] ↔ ls.filterMap ent = [] := by
  induction ls with
  | nil => simp [hg]
  | cons l ls ih =>
    have hl := hls l (List.mem_cons_self ..)
    have ih := ih (fun l h => hls l (List.mem_cons_of_mem _ h))
    cases h : ent l with
    | none => rw [region_blank hl h, ih]; simp [h]
    | some en => rw [region_entry hl h]; simp [h]

theorem region_length (ls : List (List Byte)) (hls : ∀ l ∈ ls, EntOk lw wk ent l) :
    (ls.filterMap ent).length ≤ (firstIntL (text ls ++ g)).length := by
  induction ls with
  | nil => simp
  | cons l ls ih =>
    have hl := hls l (List.mem_cons_self ..)
    have ih := ih (fun l h => hls l (List.mem_cons_of_mem _ h))
    cases h : ent l with
    | none => rw [region_blank hl h]; simpa [h] using ih
    | some en =>
      rw [region_entry hl h]
      have : (firstIntL (text ls ++ g)).length ≤ (text ls ++ g).length :=
        (toStop_suffix isDigit false (text ls ++ g)).length_le
      simp only [List.filterMap_cons, h, List.length_cons, List.length_append] at *
      omega

/-- `view` of the rest of a region -/
theorem view_rest {l : List Byte} {ls : List (List Byte)} {en} (hl : EntOk lw wk ent l) (h : ent l = some en)
    (v : View μ e (firstIntL (text (l :: ls) ++ g))) : View μ e (firstIntL (text ls ++ g)) := by
  rw [region_entry hl h] at v
  exact v.append.tail.of_suffix (toStop_suffix _ _ _)

theorem countEntryN_end (cfg : Cfg) (hw : WTrivial wk) (hr : Readable μ e) (v : View μ e []) (n pos : Nat) :
    countEntryN μ lw cfg wk (n+1) pos (rd e []) = .ok (pos, rd e []) := by
  have h1 : readInt μ (wrapU lw) (rd e []) = .ok (0, rd e []) := by
    rw [readInt_wrapU lw v]; simp [toDigitL, decVal]
  have h2 : moveToNextInt μ (rd e []) = .ok (rd e []) := by
    rw [moveToNextInt_eq v hr]; simp [nextIntL, toStop]
  simp only [countEntryN, h1, h2, ok_bind, hw.count]
  rw [good_rd v]; rfl

theorem setEntryN_end (cfg : Cfg) (hw : WTrivial wk) (hr : Readable μ e) (v : View μ e []) (n : Nat)
    (st : SetSt W) :
    setEntryN μ lw cfg wk (n+1) st (rd e []) = .ok (st, rd e []) := by
  have h1 : readInt μ (wrapU lw) (rd e []) = .ok (0, rd e []) := by
    rw [readInt_wrapU lw v]; simp [toDigitL, decVal]
  have h2 : moveToNextInt μ (rd e []) = .ok (rd e []) := by
    rw [moveToNextInt_eq v hr]; simp [nextIntL, toStop]
  obtain ⟨w, hw'⟩ := hw.read μ (rd e [])
  simp only [setEntryN, setWgt, h1, h2, ok_bind, hw', hw.wgt]
  rw [good_rd v]; rfl

theorem foldl_setLine_pos (cfg : Cfg) (b : Bool) (es : List (Nat × Nat × W)) (st : SetSt W) :
    (es.foldl (setLine cfg b) st).pos = st.pos + total cfg es := by
  induction es generalizing st with
  | nil => rfl
  | cons en es ih =>
    rw [List.foldl_cons, ih, total_cons]
    have : (setLine cfg b st en).pos = st.pos + (storedC cfg en).length := by
      unfold setLine
      cases h : storedC cfg en with
      | nil => rfl
      | cons a more => obtain ⟨x, y, w⟩ := a; simp
    omega

/-- One call of the counting entry reader on a region. -/
theorem countEntryN_region (cfg : Cfg) (hr : Readable μ e) (hg : firstIntL g = []) :
    ∀ (ls : List (List Byte)) (n pos : Nat), (∀ l ∈ ls, EntOk lw wk ent l) →
    (WTrivial wk ∨ ∀ en ∈ ls.filterMap ent, storedC cfg en ≠ []) →
    (WTrivial wk ∨ firstIntL (text ls ++ g) ≠ []) →
    View μ e (firstIntL (text ls ++ g)) → (ls.filterMap ent).length + 1 ≤ n →
    ∃ A B, ls = A ++ B ∧
      countEntryN μ lw cfg wk n pos (rd e (firstIntL (text ls ++ g))) =
        .ok (pos + total cfg (A.filterMap ent), rd e (firstIntL (text B ++ g))) ∧
      (firstIntL (text ls ++ g) ≠ [] → A.filterMap ent ≠ [])
  | [], n, pos, _, _, hne, v, hn => by
    obtain ⟨n, rfl⟩ : ∃ k, n = k + 1 := ⟨n - 1, by omega⟩
    simp only [text_nil, List.nil_append, hg] at hne v ⊢
    rcases hne with hw | hne
    · refine ⟨[], [], rfl, ?_, fun h => absurd rfl h⟩
      rw [countEntryN_end cfg hw hr v]; simp [hg]
    · exact absurd rfl hne
  | l :: ls, n, pos, hls, hd, hne, v, hn => by
    obtain ⟨n, rfl⟩ : ∃ k, n = k + 1 := ⟨n - 1, by omega⟩
    have hl := hls l (List.mem_cons_self ..)
    have hls' : ∀ l ∈ ls, EntOk lw wk ent l := fun l h => hls l (List.mem_cons_of_mem _ h)
    cases h : ent l with
    | none =>
      have e1 : (l :: ls).filterMap ent = ls.filterMap ent := by simp [h]
      rw [e1] at hd hn
      rw [region_blank hl h] at hne v ⊢
      obtain ⟨A, B, h1, h2, h3⟩ := countEntryN_region cfg hr hg ls (n+1) pos hls' hd hne v hn
      refine ⟨l :: A, B, by rw [h1]; rfl, ?_, ?_⟩
      · rw [h2]; simp [h]
      · intro hh; simpa [h] using h3 hh
    | some en =>
      have e1 : (l :: ls).filterMap ent = en :: ls.filterMap ent := by simp [h]
      have v' := view_rest hl h v
      have hlaw : LineLaw lw wk l en := by have := hl.2; rwa [h] at this
      rw [region_entry hl h] at v ⊢
      rw [countEntryN_line cfg (lineRun hlaw v hr)]
      by_cases hs : storedC cfg en = []
      · have hw : WTrivial wk := by
          rcases hd with hw | hd
          · exact hw
          · exact absurd hs (hd en (by rw [e1]; simp))
        rw [if_pos hs]
        obtain ⟨A, B, h1, h2, h3⟩ := countEntryN_region cfg hr hg ls n pos hls' (.inl hw) (.inl hw) v'
          (by rw [e1] at hn; simpa using hn)
        refine ⟨l :: A, B, by rw [h1]; rfl, ?_, ?_⟩
        · rw [h2]; simp [h, total_cons, hs]
        · intro _; simp [h]
      · rw [if_neg hs]
        refine ⟨[l], ls, rfl, ?_, ?_⟩
        · simp [h, total_cons]
        · intro _; simp [h]

/-- One call of the setting entry reader on a region. -/
theorem setEntryN_region (cfg : Cfg) (hr : Readable μ e) (hg : firstIntL g = []) :
    ∀ (ls : List (List Byte)) (n : Nat) (st : SetSt W), (∀ l ∈ ls, EntOk lw wk ent l) →
    (WTrivial wk ∨ ∀ en ∈ ls.filterMap ent, storedC cfg en ≠ []) →
    (WTrivial wk ∨ firstIntL (text ls ++ g) ≠ []) →
    View μ e (firstIntL (text ls ++ g)) → (ls.filterMap ent).length + 1 ≤ n →
    ∃ A B, ls = A ++ B ∧
      setEntryN μ lw cfg wk n st (rd e (firstIntL (text ls ++ g))) =
        .ok ((A.filterMap ent).foldl (setLine cfg wk.wgt) st, rd e (firstIntL (text B ++ g))) ∧
      (firstIntL (text ls ++ g) ≠ [] → A.filterMap ent ≠ [])
  | [], n, st, _, _, hne, v, hn => by
    obtain ⟨n, rfl⟩ : ∃ k, n = k + 1 := ⟨n - 1, by omega⟩
    simp only [text_nil, List.nil_append, hg] at hne v ⊢
    rcases hne with hw | hne
    · refine ⟨[], [], rfl, ?_, fun h => absurd rfl h⟩
      rw [setEntryN_end cfg hw hr v]; simp [hg]
    · exact absurd rfl hne
  | l :: ls, n, st, hls, hd, hne, v, hn => by
    obtain ⟨n, rfl⟩ : ∃ k, n = k + 1 := ⟨n - 1, by omega⟩
    have hl := hls l (List.mem_cons_self ..)
    have hls' : ∀ l ∈ ls, EntOk lw wk ent l := fun l h => hls l (List.mem_cons_of_mem _ h)
    cases h : ent l with
    | none =>
      have e1 : (l :: ls).filterMap ent = ls.filterMap ent := by simp [h]
      rw [e1] at hd hn
      rw [region_blank hl h] at hne v ⊢
      obtain ⟨A, B, h1, h2, h3⟩ := setEntryN_region cfg hr hg ls (n+1) st hls' hd hne v hn
      refine ⟨l :: A, B, by rw [h1]; rfl, ?_, ?_⟩
      · rw [h2]; simp [h]
      · intro hh; simpa [h] using h3 hh
    | some en =>
      have e1 : (l :: ls).filterMap ent = en :: ls.filterMap ent := by simp [h]
      have v' := view_rest hl h v
      have hlaw : LineLaw lw wk l en := by have := hl.2; rwa [h] at this
      have hd1 : WTrivial wk ∨ storedC cfg en ≠ [] :=
        hd.imp id (fun hd => hd en (by rw [e1]; simp))
      rw [region_entry hl h] at v ⊢
      rw [setEntryN_line cfg (lineRun hlaw v hr) n st hd1]
      by_cases hs : storedC cfg en = []
      · have hw : WTrivial wk := by
          rcases hd1 with hw | hd
          · exact hw
          · exact absurd hs hd
        rw [if_pos hs]
        obtain ⟨A, B, h1, h2, h3⟩ := setEntryN_region cfg hr hg ls n st hls' (.inl hw) (.inl hw) v'
          (by rw [e1] at hn; simpa using hn)
        refine ⟨l :: A, B, by rw [h1]; rfl, ?_, ?_⟩
        · rw [h2]; simp [h, setLine, hs]
        · intro _; simp [h]
      · rw [if_neg hs]
        refine ⟨[l], ls, rfl, ?_, ?_⟩
        · simp [h]
        · intro _; simp [h]

theorem storedC_plain {cfg : Cfg} (hp : cfg.plain = true) (en : Nat × Nat × W) : storedC cfg en = [en] := by
  obtain ⟨sym, ut, sl⟩ := cfg
  simp [Cfg.plain] at hp
  obtain ⟨⟨rfl, rfl⟩, rfl⟩ := hp
  obtain ⟨x, y, w⟩ := en
  simp [storedC, Spec.stored]

theorem setEntryPlain_line {l rest : List Byte} {en : Nat × Nat × W} (cfg : Cfg) (hp : cfg.plain = true)
    (h : LineRun μ e lw wk l rest en) (st : SetSt W) :
    setEntryPlain μ lw wk st (rd e (firstIntL l ++ nl :: rest)) =
      .ok (setLine cfg wk.wgt st en, rd e (firstIntL rest)) := by
  obtain ⟨u1, u2, u3, u3', h1, h2, h3, h4, h5, h6, ⟨u3'', h7, h8, h9⟩, h10, h11, h12, h13⟩ := h.ex
  simp only [setEntryPlain, setWgt, h1, ok_bind, h2, h3, h4, h5, h6, h13]
  rw [setLine, storedC_plain hp]
  obtain ⟨x, y, w⟩ := en
  cases wk.wgt <;> simp [entryActs]

theorem countEntryPlain_line {l rest : List Byte} {en : Nat × Nat × W} 
    (h : LineRun μ e lw wk l rest en) (pos : Nat) :
    countEntryPlain μ pos (rd e (firstIntL l ++ nl :: rest)) = .ok (pos + 1, rd e (firstIntL rest)) := by
  obtain ⟨u1, u2, u3, u3', h1, h2, h3, h4, h5, h6, ⟨u3'', h7, h8, h9⟩, h10, h11, h12, h13⟩ := h.ex
  simp only [countEntryPlain, h10, ok_bind, h11, h12, h13]
  simp

/-- A region with an entry: skipping its blank lines. -/
theorem region_first (ls : List (List Byte)) (hls : ∀ l ∈ ls, EntOk lw wk ent l) (hg : firstIntL g = [])
    (hne : firstIntL (text ls ++ g) ≠ []) :
    ∃ A l en B, ls = A ++ l :: B ∧ A.filterMap ent = [] ∧ ent l = some en ∧
      firstIntL (text ls ++ g) = firstIntL l ++ nl :: (text B ++ g) := by
  induction ls with
  | nil => exact absurd hg hne
  | cons l ls ih =>
    have hl := hls l (List.mem_cons_self ..)
    cases h : ent l with
    | none =>
      rw [region_blank hl h] at hne ⊢
      obtain ⟨A, l', en, B, h1, h2, h3, h4⟩ := ih (fun l h => hls l (List.mem_cons_of_mem _ h)) hne
      exact ⟨l :: A, l', en, B, by rw [h1]; rfl, by simp [h, h2], h3, h4⟩
    | some en =>
      exact ⟨[], l, en, ls, rfl, rfl, h, region_entry hl h⟩

/-- One call of `read_coord_entry_<true>`. -/
theorem countEntry_region (cfg : Cfg) (hr : Readable μ e) (hg : firstIntL g = [])
    (ls : List (List Byte)) (pos : Nat) (hls : ∀ l ∈ ls, EntOk lw wk ent l)
    (hd : WTrivial wk ∨ ∀ en ∈ ls.filterMap ent, storedC cfg en ≠ [])
    (hne : firstIntL (text ls ++ g) ≠ []) (v : View μ e (firstIntL (text ls ++ g))) :
    ∃ A B, ls = A ++ B ∧
      countEntry μ lw cfg wk pos (rd e (firstIntL (text ls ++ g))) =
        .ok (pos + total cfg (A.filterMap ent), rd e (firstIntL (text B ++ g))) ∧
      A.filterMap ent ≠ [] := by
  unfold countEntry
  by_cases hp : cfg.plain = true
  · rw [if_pos hp]
    obtain ⟨A, l, en, B, h1, h2, h3, h4⟩ := region_first ls hls hg hne
    have hl : EntOk lw wk ent l := hls l (by rw [h1]; simp)
    have hlaw : LineLaw lw wk l en := by have := hl.2; rwa [h3] at this
    rw [h4] at v ⊢
    refine ⟨A ++ [l], B, by rw [h1]; simp, ?_, by simp [h3]⟩
    rw [countEntryPlain_line (lineRun hlaw v hr)]
    simp [h2, h3, total_cons, storedC_plain hp]
  · rw [if_neg hp]
    have hlen := Nat.add_le_add_right (region_length (g := g) ls hls) 1
    rw [v.sub]
    obtain ⟨A, B, h1, h2, h3⟩ := countEntryN_region cfg hr hg ls _ pos hls hd (.inr hne) v hlen
    exact ⟨A, B, h1, h2, h3 hne⟩

/-- One call of `read_coord_entry_<false>`. -/
theorem setEntry_region (cfg : Cfg) (hr : Readable μ e) (hg : firstIntL g = [])
    (ls : List (List Byte)) (st : SetSt W) (hls : ∀ l ∈ ls, EntOk lw wk ent l)
    (hd : WTrivial wk ∨ ∀ en ∈ ls.filterMap ent, storedC cfg en ≠ [])
    (hne : firstIntL (text ls ++ g) ≠ []) (v : View μ e (firstIntL (text ls ++ g))) :
    ∃ A B, ls = A ++ B ∧
      setEntry μ lw cfg wk st (rd e (firstIntL (text ls ++ g))) =
        .ok ((A.filterMap ent).foldl (setLine cfg wk.wgt) st, rd e (firstIntL (text B ++ g))) ∧
      A.filterMap ent ≠ [] := by
  unfold setEntry
  by_cases hp : cfg.plain = true
  · rw [if_pos hp]
    obtain ⟨A, l, en, B, h1, h2, h3, h4⟩ := region_first ls hls hg hne
    have hl : EntOk lw wk ent l := hls l (by rw [h1]; simp)
    have hlaw : LineLaw lw wk l en := by have := hl.2; rwa [h3] at this
    rw [h4] at v ⊢
    refine ⟨A ++ [l], B, by rw [h1]; simp, ?_, by simp [h3]⟩
    rw [setEntryPlain_line cfg hp (lineRun hlaw v hr)]
    simp [h2, h3]
  · rw [if_neg hp]
    have hlen := Nat.add_le_add_right (region_length (g := g) ls hls) 1
    rw [v.sub]
    obtain ⟨A, B, h1, h2, h3⟩ := setEntryN_region cfg hr hg ls _ st hls hd (.inr hne) v hlen
    exact ⟨A, B, h1, h2, h3 hne⟩

theorem view_suffix_lines {A B : List (List Byte)} {ls} (h : ls = A ++ B) (hls : ∀ l ∈ ls, EntOk lw wk ent l)
    (v : View μ e (firstIntL (text ls ++ g))) : View μ e (firstIntL (text B ++ g)) := by
  subst h
  refine v.of_suffix ?_
  have hA : NoNl A := fun l hl => (hls l (by simp [hl])).1
  rw [text_append, List.append_assoc]
  rcases firstInt_text A hA with ⟨u, _, hu⟩ | hu
  · rw [hu]; exact (toStop_suffix _ _ _).trans (List.suffix_append _ _)
  · rw [hu]; exact List.suffix_refl _

/-- Pass 1 over a region. -/
theorem count_region (cfg : Cfg) (hr : Readable μ e) (hg : firstIntL g = []) :
    ∀ (n : Nat) (ls : List (List Byte)) (pos : Nat), (∀ l ∈ ls, EntOk lw wk ent l) →
    (WTrivial wk ∨ ∀ en ∈ ls.filterMap ent, storedC cfg en ≠ []) →
    View μ e (firstIntL (text ls ++ g)) → (ls.filterMap ent).length ≤ n →
    whileGood (countEntry μ lw cfg wk) n pos (rd e (firstIntL (text ls ++ g))) =
      .ok (pos + total cfg (ls.filterMap ent), rd e [])
  | 0, ls, pos, hls, _, v, hn => by
    have h0 : ls.filterMap ent = [] := List.length_eq_zero_iff.mp (by omega)
    have h1 := (region_nil_iff ls hls hg).mpr h0
    rw [h1] at v ⊢
    rw [whileGood, good_rd v, h0]; simp
  | n+1, ls, pos, hls, hd, v, hn => by
    rw [whileGood, good_rd v]
    by_cases hne : firstIntL (text ls ++ g) = []
    · have h0 := (region_nil_iff ls hls hg).mp hne
      rw [hne, h0]; simp
    · obtain ⟨A, B, h1, h2, h3⟩ := countEntry_region cfg hr hg ls pos hls hd hne v
      have hB : ∀ l ∈ B, EntOk lw wk ent l := fun l hl => hls l (by rw [h1]; simp [hl])
      have hdB : WTrivial wk ∨ ∀ en ∈ B.filterMap ent, storedC cfg en ≠ [] :=
        hd.imp id (fun hd en hen => hd en (by rw [h1, List.filterMap_append]; simp [-List.mem_filterMap, hen]))
      have hlen : (ls.filterMap ent).length = (A.filterMap ent).length + (B.filterMap ent).length := by
        rw [h1, List.filterMap_append, List.length_append]
      have hApos : 0 < (A.filterMap ent).length := List.length_pos_iff.mpr h3
      have ih := count_region cfg hr hg n B (pos + total cfg (A.filterMap ent)) hB hdB
        (view_suffix_lines h1 hls v) (by omega)
      rw [if_pos (by simpa using hne), h2, ok_bind]
      show whileGood _ n _ _ = _
      rw [ih]
      congr 2
      rw [h1, List.filterMap_append, total_append]; omega

/-- Pass 2 over a region. -/
theorem set_region (cfg : Cfg) (hr : Readable μ e) (hg : firstIntL g = []) :
    ∀ (n : Nat) (ls : List (List Byte)) (st : SetSt W), (∀ l ∈ ls, EntOk lw wk ent l) →
    (WTrivial wk ∨ ∀ en ∈ ls.filterMap ent, storedC cfg en ≠ []) →
    View μ e (firstIntL (text ls ++ g)) → (ls.filterMap ent).length ≤ n →
    whileGood (setEntry μ lw cfg wk) n st (rd e (firstIntL (text ls ++ g))) =
      .ok ((ls.filterMap ent).foldl (setLine cfg wk.wgt) st, rd e [])
  | 0, ls, st, hls, _, v, hn => by
    have h0 : ls.filterMap ent = [] := List.length_eq_zero_iff.mp (by omega)
    have h1 := (region_nil_iff ls hls hg).mpr h0
    rw [h1] at v ⊢
    rw [whileGood, good_rd v, h0]; simp
  | n+1, ls, st, hls, hd, v, hn => by
    rw [whileGood, good_rd v]
    by_cases hne : firstIntL (text ls ++ g) = []
    · have h0 := (region_nil_iff ls hls hg).mp hne
      rw [hne, h0]; simp
    · obtain ⟨A, B, h1, h2, h3⟩ := setEntry_region cfg hr hg ls st hls hd hne v
      have hB : ∀ l ∈ B, EntOk lw wk ent l := fun l hl => hls l (by rw [h1]; simp [hl])
      have hdB : WTrivial wk ∨ ∀ en ∈ B.filterMap ent, storedC cfg en ≠ [] :=
        hd.imp id (fun hd en hen => hd en (by rw [h1, List.filterMap_append]; simp [-List.mem_filterMap, hen]))
      have hlen : (ls.filterMap ent).length = (A.filterMap ent).length + (B.filterMap ent).length := by
        rw [h1, List.filterMap_append, List.length_append]
      have hApos : 0 < (A.filterMap ent).length := List.length_pos_iff.mpr h3
      have ih := set_region cfg hr hg n B ((A.filterMap ent).foldl (setLine cfg wk.wgt) st) hB hdB
        (view_suffix_lines h1 hls v) (by omega)
      rw [if_pos (by simpa using hne), h2, ok_bind]
      show whileGood _ n _ _ = _
      rw [ih, h1, List.filterMap_append, List.foldl_append]

end

end Pigo
