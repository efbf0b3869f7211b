import Verif.Lemmas.Signed
import Verif.Props.MatrixMarket

/-!
# Loading text with signed types: labels that fit do not overflow
-/

namespace Pigo

variable {W : Type} {μ : Mapping} {e : Nat}

/-- The two integers of the line fit a signed type of `lw` bits. -/
def SmallLine (lw : Nat) (l : List Byte) : Prop :=
  decVal ((firstIntL l).takeWhile isDigit) < 2 ^ (lw - 1) ∧
    decVal ((nextIntL (firstIntL l)).takeWhile isDigit) < 2 ^ (lw - 1)

theorem readInt_line_signed (lw : Nat) (b : Bool) (s0 u rest : List Byte) (hu : u = toStop isDigit b s0) (hne : u ≠ [])
    (v : View μ e (u ++ nl :: rest)) (h : decVal (u.takeWhile isDigit) < 2 ^ (lw - 1)) :
    readInt μ (wrapS lw) (rd e (u ++ nl :: rest)) = readInt μ (wrapU lw) (rd e (u ++ nl :: rest)) := by
  have ht : toDigitL (u ++ nl :: rest) = u ++ nl :: rest := by
    cases u with
    | nil => exact absurd rfl hne
    | cons c t =>
      have := (toStop_head isDigit b s0 c t hu.symm).1
      simp [toDigitL, this]
  have hh : decVal ((toDigitL (u ++ nl :: rest)).takeWhile isDigit) < 2 ^ (lw - 1) := by
    rw [ht, takeWhile_append_nl _ isDigit_nl]; exact h
  rw [readInt_wrapU lw v, readInt_wrapS lw v hh, Nat.mod_eq_of_lt (Nat.lt_of_lt_of_le hh (pow_pred_le lw))]

/-- The two label reads of a line. -/
structure SameReads (μ : Mapping) (e lw : Nat) (l rest : List Byte) : Prop where
  x : readInt μ (wrapS lw) (rd e (firstIntL l ++ nl :: rest)) = readInt μ (wrapU lw) (rd e (firstIntL l ++ nl :: rest))
  y : ∀ p r, readInt μ (wrapU lw) (rd e (firstIntL l ++ nl :: rest)) = .ok p → moveToNextInt μ p.2 = .ok r →
    readInt μ (wrapS lw) r = readInt μ (wrapU lw) r

theorem sameReads {lw : Nat} {wk : WKind W} {l rest : List Byte} {en : Nat × Nat × W} (h : LineLaw lw wk l en)
    (hs : SmallLine lw l) (v : View μ e (firstIntL l ++ nl :: rest)) (hr : Readable μ e) : SameReads μ e lw l rest := by
  have n0 : nl ∉ firstIntL l := not_mem_firstInt h.nonl
  have n1 : nl ∉ (firstIntL l).dropWhile isDigit := not_mem_dropWhile _ n0
  have suf {a b : List Byte} (hs : a <:+ b) : a ++ nl :: rest <:+ b ++ nl :: rest := by
    obtain ⟨t, ht⟩ := hs; exact ⟨t, by rw [← ht]; simp⟩
  have s1 : (firstIntL l).dropWhile isDigit <:+ firstIntL l := dropWhile_suffix' _ _
  have s2 : nextIntL (firstIntL l) <:+ firstIntL l := (toStop_suffix _ _ _).trans s1
  have v1 := v.of_suffix (suf s1)
  have v2 := v.of_suffix (suf s2)
  refine ⟨readInt_line_signed lw false l _ rest rfl h.hx v hs.1, ?_⟩
  intro p r hp hmv
  rw [readInt_line lw false l _ rest rfl h.hx v] at hp
  injection hp with hp
  subst hp
  rw [moveToNextInt_eq v1 hr, nextIntL_line _ _ n1 (by rw [nextIntL_dropWhile]; exact h.hy), nextIntL_dropWhile] at hmv
  injection hmv with hmv
  subst hmv
  exact readInt_line_signed lw false _ _ rest rfl h.hy v2 hs.2

section
variable {lw : Nat} {wk : WKind W} {ent : List Byte → Option (Nat × Nat × W)} {g : List Byte}

theorem sCountEntryN_line (cfg : Cfg) {l rest : List Byte} {en : Nat × Nat × W} (sr : SameReads μ e lw l rest)
    (h : LineRun μ e lw wk l rest en) (n pos : Nat) :
    sCountEntryN μ lw cfg wk (n+1) pos (rd e (firstIntL l ++ nl :: rest)) =
      if storedC cfg en = [] then sCountEntryN μ lw cfg wk n pos (rd e (firstIntL rest))
      else .ok (pos + (storedC cfg en).length, rd e (firstIntL rest)) := by
  obtain ⟨u1, u2, u3, u3', h1, h2, h3, h4, h5, h6, ⟨u3'', h7, h8, h9⟩, h10, h11, h12, h13⟩ := h.ex
  have h1' := sr.x.trans h1
  have h3' := (sr.y _ _ h1 h2).trans h3
  obtain ⟨x, y, w⟩ := en
  obtain ⟨sym, ut, sl⟩ := cfg
  simp only [sCountEntryN, h1', ok_bind, h2, h3', h7, h8, h9, h13]
  clear h sr h1' h3' h1 h2 h3 h4 h5 h6 h7 h8 h9 h10 h11 h12 h13
  simp only [storedC, Spec.stored]
  cases sym <;> cases ut <;> cases sl <;> rcases Nat.lt_trichotomy x y with hxy | hxy | hxy <;>
    simp_all [Nat.le_of_lt, Nat.not_lt_of_lt, Nat.ne_of_lt, Nat.ne_of_gt, Nat.not_le_of_lt, Nat.lt_irrefl]

theorem sSetEntryN_line (cfg : Cfg) {l rest : List Byte} {en : Nat × Nat × W} (sr : SameReads μ e lw l rest)
    (h : LineRun μ e lw wk l rest en) (n : Nat) (st : SetSt W) (hd : WTrivial wk ∨ storedC cfg en ≠ []) :
    sSetEntryN μ lw cfg wk (n+1) st (rd e (firstIntL l ++ nl :: rest)) =
      if storedC cfg en = [] then sSetEntryN μ lw cfg wk n st (rd e (firstIntL rest))
      else .ok (setLine cfg wk.wgt st en, rd e (firstIntL rest)) := by
  obtain ⟨u1, u2, u3, u3', h1, h2, h3, h4, h5, h6, ⟨u3'', h7, h8, h9⟩, h10, h11, h12, h13⟩ := h.ex
  have h1' := sr.x.trans h1
  have h3' := (sr.y _ _ h1 h2).trans h3
  obtain ⟨x, y, w⟩ := en
  obtain ⟨sym, ut, sl⟩ := cfg
  simp only [sSetEntryN, setWgt, h1', ok_bind, h2, h3', h4, h5, h6, h13]
  clear h sr h1' h3' h1 h2 h3 h4 h5 h6 h7 h8 h9 h10 h11 h12 h13
  simp only [storedC, Spec.stored, setLine] at hd ⊢
  have hw : WTrivial wk → wk.wgt = false := fun t => t.wgt
  cases hwg : wk.wgt <;>
  cases sym <;> cases ut <;> cases sl <;> rcases Nat.lt_trichotomy x y with hxy | hxy | hxy <;>
    simp_all [entryActs, Nat.le_of_lt, Nat.min_eq_left, Nat.min_eq_right, Nat.max_eq_left, Nat.max_eq_right,
      Nat.not_lt_of_lt, Nat.ne_of_lt, Nat.ne_of_gt, Nat.not_le_of_lt, Nat.lt_irrefl]

theorem sSetEntryPlain_line {l rest : List Byte} {en : Nat × Nat × W} (sr : SameReads μ e lw l rest)
    (h : LineRun μ e lw wk l rest en) (st : SetSt W) :
    sSetEntryPlain μ lw wk st (rd e (firstIntL l ++ nl :: rest)) =
      setEntryPlain μ lw wk st (rd e (firstIntL l ++ nl :: rest)) := by
  obtain ⟨u1, u2, u3, u3', h1, h2, h3, h4, h5, h6, ⟨u3'', h7, h8, h9⟩, h10, h11, h12, h13⟩ := h.ex
  simp only [sSetEntryPlain, setEntryPlain, sr.x.trans h1, (sr.y _ _ h1 h2).trans h3, h1, h3, ok_bind, h2]

theorem readInt_end (v : View μ e []) : readInt μ (wrapS lw) (rd e []) = readInt μ (wrapU lw) (rd e []) := by
  rw [readInt_wrapU lw v, readInt_wrapS lw v (by simp [toDigitL, decVal]; exact Nat.two_pow_pos _)]
  simp [toDigitL, decVal]

theorem sCountEntryN_end (cfg : Cfg) (hw : WTrivial wk) (hr : Readable μ e) (v : View μ e []) (n pos : Nat) :
    sCountEntryN μ lw cfg wk (n+1) pos (rd e []) = .ok (pos, rd e []) := by
  have h1 : readInt μ (wrapS lw) (rd e []) = .ok (0, rd e []) := by
    rw [readInt_end v, readInt_wrapU lw v]; simp [toDigitL, decVal]
  have h2 : moveToNextInt μ (rd e []) = .ok (rd e []) := by
    rw [moveToNextInt_eq v hr]; simp [nextIntL, toStop]
  simp only [sCountEntryN, h1, h2, ok_bind, hw.count]
  rw [good_rd v]; rfl

theorem sSetEntryN_end (cfg : Cfg) (hw : WTrivial wk) (hr : Readable μ e) (v : View μ e []) (n : Nat) (st : SetSt W) :
    sSetEntryN μ lw cfg wk (n+1) st (rd e []) = .ok (st, rd e []) := by
  have h1 : readInt μ (wrapS lw) (rd e []) = .ok (0, rd e []) := by
    rw [readInt_end v, readInt_wrapU lw v]; simp [toDigitL, decVal]
  have h2 : moveToNextInt μ (rd e []) = .ok (rd e []) := by
    rw [moveToNextInt_eq v hr]; simp [nextIntL, toStop]
  obtain ⟨w, hw'⟩ := hw.read μ (rd e [])
  simp only [sSetEntryN, setWgt, h1, h2, ok_bind, hw', hw.wgt]
  rw [good_rd v]; rfl

/-- The lines that carry an entry are small. -/
def SmallLines (lw : Nat) (ent : List Byte → Option (Nat × Nat × W)) (ls : List (List Byte)) : Prop :=
  ∀ l ∈ ls, ∀ en, ent l = some en → SmallLine lw l

/-- One call of the counting entry reader on a region. -/
theorem sCountEntryN_same (cfg : Cfg) (hr : Readable μ e) (hg : firstIntL g = []) :
    ∀ (ls : List (List Byte)) (n pos : Nat), (∀ l ∈ ls, EntOk lw wk ent l) → SmallLines lw ent ls →
    (WTrivial wk ∨ ∀ en ∈ ls.filterMap ent, storedC cfg en ≠ []) →
    (WTrivial wk ∨ firstIntL (text ls ++ g) ≠ []) →
    View μ e (firstIntL (text ls ++ g)) →
    sCountEntryN μ lw cfg wk n pos (rd e (firstIntL (text ls ++ g))) =
      countEntryN μ lw cfg wk n pos (rd e (firstIntL (text ls ++ g)))
  | _, 0, _, _, _, _, _, _ => rfl
  | [], n+1, pos, _, _, _, hne, v => by
    simp only [text_nil, List.nil_append, hg] at hne v ⊢
    rcases hne with hw | hne
    · rw [sCountEntryN_end cfg hw hr v, countEntryN_end cfg hw hr v]
    · exact absurd rfl hne
  | l :: ls, n+1, pos, hls, hsm, hd, hne, v => by
    have hl := hls l (List.mem_cons_self ..)
    have hls' : ∀ l ∈ ls, EntOk lw wk ent l := fun l h => hls l (List.mem_cons_of_mem _ h)
    have hsm' : SmallLines lw ent ls := fun l h => hsm l (List.mem_cons_of_mem _ h)
    cases h : ent l with
    | none =>
      have e1 : (l :: ls).filterMap ent = ls.filterMap ent := by simp [h]
      rw [e1] at hd
      rw [region_blank hl h] at hne v ⊢
      exact sCountEntryN_same cfg hr hg ls (n+1) pos hls' hsm' hd hne v
    | some en =>
      have e1 : (l :: ls).filterMap ent = en :: ls.filterMap ent := by simp [h]
      have v' := view_rest hl h v
      have hlaw : LineLaw lw wk l en := by have := hl.2; rwa [h] at this
      rw [region_entry hl h] at v ⊢
      rw [countEntryN_line cfg (lineRun hlaw v hr),
        sCountEntryN_line cfg (sameReads hlaw (hsm l (List.mem_cons_self ..) en h) v hr) (lineRun hlaw v hr)]
      by_cases hs : storedC cfg en = []
      · have hw : WTrivial wk := by
          rcases hd with hw | hd
          · exact hw
          · exact absurd hs (hd en (by rw [e1]; simp))
        rw [if_pos hs, if_pos hs]
        exact sCountEntryN_same cfg hr hg ls n pos hls' hsm' (.inl hw) (.inl hw) v'
      · rw [if_neg hs, if_neg hs]

/-- One call of the setting entry reader on a region. -/
theorem sSetEntryN_same (cfg : Cfg) (hr : Readable μ e) (hg : firstIntL g = []) :
    ∀ (ls : List (List Byte)) (n : Nat) (st : SetSt W), (∀ l ∈ ls, EntOk lw wk ent l) → SmallLines lw ent ls →
    (WTrivial wk ∨ ∀ en ∈ ls.filterMap ent, storedC cfg en ≠ []) →
    (WTrivial wk ∨ firstIntL (text ls ++ g) ≠ []) →
    View μ e (firstIntL (text ls ++ g)) →
    sSetEntryN μ lw cfg wk n st (rd e (firstIntL (text ls ++ g))) =
      setEntryN μ lw cfg wk n st (rd e (firstIntL (text ls ++ g)))
  | _, 0, _, _, _, _, _, _ => rfl
  | [], n+1, st, _, _, _, hne, v => by
    simp only [text_nil, List.nil_append, hg] at hne v ⊢
    rcases hne with hw | hne
    · rw [sSetEntryN_end cfg hw hr v, setEntryN_end cfg hw hr v]
    · exact absurd rfl hne
  | l :: ls, n+1, st, hls, hsm, hd, hne, v => by
    have hl := hls l (List.mem_cons_self ..)
    have hls' : ∀ l ∈ ls, EntOk lw wk ent l := fun l h => hls l (List.mem_cons_of_mem _ h)
    have hsm' : SmallLines lw ent ls := fun l h => hsm l (List.mem_cons_of_mem _ h)
    cases h : ent l with
    | none =>
      have e1 : (l :: ls).filterMap ent = ls.filterMap ent := by simp [h]
      rw [e1] at hd
      rw [region_blank hl h] at hne v ⊢
      exact sSetEntryN_same cfg hr hg ls (n+1) st hls' hsm' hd hne v
    | some en =>
      have e1 : (l :: ls).filterMap ent = en :: ls.filterMap ent := by simp [h]
      have v' := view_rest hl h v
      have hlaw : LineLaw lw wk l en := by have := hl.2; rwa [h] at this
      have hd1 : WTrivial wk ∨ storedC cfg en ≠ [] := hd.imp id (fun hd => hd en (by rw [e1]; simp))
      rw [region_entry hl h] at v ⊢
      rw [setEntryN_line cfg (lineRun hlaw v hr) n st hd1,
        sSetEntryN_line cfg (sameReads hlaw (hsm l (List.mem_cons_self ..) en h) v hr) (lineRun hlaw v hr) n st hd1]
      by_cases hs : storedC cfg en = []
      · have hw : WTrivial wk := by
          rcases hd1 with hw | hd
          · exact hw
          · exact absurd hs hd
        rw [if_pos hs, if_pos hs]
        exact sSetEntryN_same cfg hr hg ls n st hls' hsm' (.inl hw) (.inl hw) v'
      · rw [if_neg hs, if_neg hs]

theorem sCountEntry_same (cfg : Cfg) (hr : Readable μ e) (hg : firstIntL g = []) (ls : List (List Byte)) (pos : Nat)
    (hls : ∀ l ∈ ls, EntOk lw wk ent l) (hsm : SmallLines lw ent ls)
    (hd : WTrivial wk ∨ ∀ en ∈ ls.filterMap ent, storedC cfg en ≠ [])
    (hne : firstIntL (text ls ++ g) ≠ []) (v : View μ e (firstIntL (text ls ++ g))) :
    sCountEntry μ lw cfg wk pos (rd e (firstIntL (text ls ++ g))) =
      countEntry μ lw cfg wk pos (rd e (firstIntL (text ls ++ g))) := by
  unfold sCountEntry countEntry
  split
  · rfl
  · exact sCountEntryN_same cfg hr hg ls _ pos hls hsm hd (.inr hne) v

theorem sSetEntry_same (cfg : Cfg) (hr : Readable μ e) (hg : firstIntL g = []) (ls : List (List Byte)) (st : SetSt W)
    (hls : ∀ l ∈ ls, EntOk lw wk ent l) (hsm : SmallLines lw ent ls)
    (hd : WTrivial wk ∨ ∀ en ∈ ls.filterMap ent, storedC cfg en ≠ [])
    (hne : firstIntL (text ls ++ g) ≠ []) (v : View μ e (firstIntL (text ls ++ g))) :
    sSetEntry μ lw cfg wk st (rd e (firstIntL (text ls ++ g))) =
      setEntry μ lw cfg wk st (rd e (firstIntL (text ls ++ g))) := by
  unfold sSetEntry setEntry
  split
  · obtain ⟨A, l, en, B, h1, h2, h3, h4⟩ := region_first ls hls hg hne
    have hl : EntOk lw wk ent l := hls l (by rw [h1]; simp)
    have hlaw : LineLaw lw wk l en := by have := hl.2; rwa [h3] at this
    rw [h4] at v ⊢
    exact sSetEntryPlain_line (sameReads hlaw (hsm l (by rw [h1]; simp) en h3) v hr) (lineRun hlaw v hr) st
  · exact sSetEntryN_same cfg hr hg ls _ st hls hsm hd (.inr hne) v

theorem whileGood_congr {σ : Type} {f f' : σ → Reader → M (σ × Reader)} (n : Nat) (s : σ) (r : Reader)
    (h : r.good = true → f s r = f' s r)
    (hn : r.good = true → ∀ p, f' s r = .ok p → whileGood f n p.1 p.2 = whileGood f' n p.1 p.2) :
    whileGood f (n+1) s r = whileGood f' (n+1) s r := by
  simp only [whileGood]
  split
  · rename_i hg
    rw [h hg]
    cases hp : f' s r with
    | error _ => rfl
    | ok p => exact hn hg p hp
  · rfl

/-- Pass 1 over a region. -/
theorem sCount_same (cfg : Cfg) (hr : Readable μ e) (hg : firstIntL g = []) :
    ∀ (n : Nat) (ls : List (List Byte)) (pos : Nat), (∀ l ∈ ls, EntOk lw wk ent l) → SmallLines lw ent ls →
    (WTrivial wk ∨ ∀ en ∈ ls.filterMap ent, storedC cfg en ≠ []) →
    View μ e (firstIntL (text ls ++ g)) →
    whileGood (sCountEntry μ lw cfg wk) n pos (rd e (firstIntL (text ls ++ g))) =
      whileGood (countEntry μ lw cfg wk) n pos (rd e (firstIntL (text ls ++ g)))
  | 0, _, _, _, _, _, _ => by simp only [whileGood]
  | n+1, ls, pos, hls, hsm, hd, v => by
    by_cases hne : firstIntL (text ls ++ g) = []
    · refine whileGood_congr n _ _ (fun hg' => ?_) (fun hg' => ?_) <;>
        (rw [good_rd v, hne] at hg'; simp at hg')
    · obtain ⟨A, B, h1, h2, h3⟩ := countEntry_region cfg hr hg ls pos hls hd hne v
      have hB : ∀ l ∈ B, EntOk lw wk ent l := fun l hl => hls l (by rw [h1]; simp [hl])
      have hsB : SmallLines lw ent B := fun l hl => hsm l (by rw [h1]; simp [hl])
      have hdB : WTrivial wk ∨ ∀ en ∈ B.filterMap ent, storedC cfg en ≠ [] :=
        hd.imp id (fun hd en hen => hd en (by rw [h1, List.filterMap_append]; simp [-List.mem_filterMap, hen]))
      refine whileGood_congr n _ _ (fun _ => sCountEntry_same cfg hr hg ls pos hls hsm hd hne v) (fun _ p hp => ?_)
      rw [h2] at hp
      injection hp with hp
      subst hp
      exact sCount_same cfg hr hg n B _ hB hsB hdB (view_suffix_lines h1 hls v)

/-- Pass 2 over a region. -/
theorem sSet_same (cfg : Cfg) (hr : Readable μ e) (hg : firstIntL g = []) :
    ∀ (n : Nat) (ls : List (List Byte)) (st : SetSt W), (∀ l ∈ ls, EntOk lw wk ent l) → SmallLines lw ent ls →
    (WTrivial wk ∨ ∀ en ∈ ls.filterMap ent, storedC cfg en ≠ []) →
    View μ e (firstIntL (text ls ++ g)) →
    whileGood (sSetEntry μ lw cfg wk) n st (rd e (firstIntL (text ls ++ g))) =
      whileGood (setEntry μ lw cfg wk) n st (rd e (firstIntL (text ls ++ g)))
  | 0, _, _, _, _, _, _ => by simp only [whileGood]
  | n+1, ls, st, hls, hsm, hd, v => by
    by_cases hne : firstIntL (text ls ++ g) = []
    · refine whileGood_congr n _ _ (fun hg' => ?_) (fun hg' => ?_) <;>
        (rw [good_rd v, hne] at hg'; simp at hg')
    · obtain ⟨A, B, h1, h2, h3⟩ := setEntry_region cfg hr hg ls st hls hd hne v
      have hB : ∀ l ∈ B, EntOk lw wk ent l := fun l hl => hls l (by rw [h1]; simp [hl])
      have hsB : SmallLines lw ent B := fun l hl => hsm l (by rw [h1]; simp [hl])
      have hdB : WTrivial wk ∨ ∀ en ∈ B.filterMap ent, storedC cfg en ≠ [] :=
        hd.imp id (fun hd en hen => hd en (by rw [h1, List.filterMap_append]; simp [-List.mem_filterMap, hen]))
      refine whileGood_congr n _ _ (fun _ => sSetEntry_same cfg hr hg ls st hls hsm hd hne v) (fun _ p hp => ?_)
      rw [h2] at hp
      injection hp with hp
      subst hp
      exact sSet_same cfg hr hg n B _ hB hsB hdB (view_suffix_lines h1 hls v)

end

theorem eq_of_mod_pow {a b : Nat} (h : ∀ k, a % 2 ^ k = b % 2 ^ k) : a = b := by
  have := h (a + b)
  rwa [Nat.mod_eq_of_lt (Nat.lt_of_le_of_lt (Nat.le_add_right a b) Nat.lt_two_pow_self),
    Nat.mod_eq_of_lt (Nat.lt_of_le_of_lt (Nat.le_add_left b a) Nat.lt_two_pow_self)] at this

theorem mapE_congr {α β : Type} {f g : α → M β} : ∀ (l : List α), (∀ a ∈ l, f a = g a) → mapE f l = mapE g l
  | [], _ => rfl
  | a :: l, h => by
    simp only [mapE]
    rw [h a (List.mem_cons_self ..), mapE_congr l (fun b hb => h b (List.mem_cons_of_mem _ hb))]

/-- The two passes of `read_el_` on a text of small lines. -/
theorem sReadElPlan_same {μ : Mapping} {e lw ow : Nat} {ls : List (List Byte)} {tail : List Byte} {wk : WKind W}
    {ent : List Byte → Option (Nat × Nat × W)} (cfg : Cfg) {T : Nat} (hT : 0 < T)
    (st : ElState μ e ls tail) (hls : ∀ l ∈ ls, EntOk lw wk ent l) (hsm : SmallLines lw ent ls)
    (hd : WTrivial wk ∨ ∀ en ∈ ls.filterMap ent, storedC cfg en ≠ [])
    (hm : total cfg (ls.filterMap ent) < 2 ^ (ow - 1)) :
    sReadElPlan μ lw ow cfg wk T (rd e (text ls ++ tail)) = readElPlan μ lw ow cfg wk T (rd e (text ls ++ tail)) := by
  have hsegmem : ∀ tid, ∀ l ∈ segLines (text ls ++ tail) ls T tid, l ∈ ls :=
    fun tid l hl => List.mem_of_mem_drop (List.mem_of_mem_take hl)
  have hsegok : ∀ tid, ∀ l ∈ segLines (text ls ++ tail) ls T tid, EntOk lw wk ent l :=
    fun tid l hl => hls l (hsegmem tid l hl)
  have hsegsm : ∀ tid, SmallLines lw ent (segLines (text ls ++ tail) ls T tid) :=
    fun tid l hl => hsm l (hsegmem tid l hl)
  have hsegd : ∀ tid, WTrivial wk ∨ ∀ en ∈ (segLines (text ls ++ tail) ls T tid).filterMap ent, storedC cfg en ≠ [] := by
    intro tid
    refine hd.imp id (fun hd en hen => hd en ?_)
    obtain ⟨l, hl, he⟩ := List.mem_filterMap.mp hen
    exact List.mem_filterMap.mpr ⟨l, hsegmem tid l hl, he⟩
  have hreg : mapE (elRegion μ (rd e (text ls ++ tail)) T) (List.range T) =
      .ok ((List.range T).map (fun tid => rd (endOf e ls tail T tid) (regionOf ls tail T tid))) :=
    mapE_ok _ _ _ (fun tid ht => (elRegion_eq st (List.mem_range.mp ht)).1)
  have hplan := fun k => readElPlan_eq (ow := k) cfg hT st hls hd
  have hcount : mapE (sElCount μ lw cfg wk) ((List.range T).map (fun tid => rd (endOf e ls tail T tid) (regionOf ls tail T tid))) =
      mapE (elCount μ lw cfg wk) ((List.range T).map (fun tid => rd (endOf e ls tail T tid) (regionOf ls tail T tid))) := by
    refine mapE_congr _ ?_
    intro r hr
    obtain ⟨tid, ht, rfl⟩ := List.mem_map.mp hr
    obtain ⟨_, v, r⟩ := elRegion_eq st (List.mem_range.mp ht)
    unfold sElCount elCount
    unfold regionOf at v ⊢
    rw [sCount_same cfg r (garb_spec _).2 _ _ 0 (hsegok tid) (hsegsm tid) (hsegd tid) v]
  have hset : ∀ offs, mapE (sElSet μ lw cfg wk offs) ((List.range T).zip
        ((List.range T).map (fun tid => rd (endOf e ls tail T tid) (regionOf ls tail T tid)))) =
      mapE (elSet μ lw cfg wk offs) ((List.range T).zip
        ((List.range T).map (fun tid => rd (endOf e ls tail T tid) (regionOf ls tail T tid)))) := by
    intro offs
    rw [zip_map_self]
    refine mapE_congr _ ?_
    intro p hp
    obtain ⟨tid, ht, rfl⟩ := List.mem_map.mp hp
    obtain ⟨_, v, r⟩ := elRegion_eq st (List.mem_range.mp ht)
    unfold sElSet elSet
    unfold regionOf at v ⊢
    simp only
    rw [sSet_same cfg r (garb_spec _).2 _ _ _ (hsegok tid) (hsegsm tid) (hsegd tid) v]
  unfold sReadElPlan
  unfold readElPlan at hplan ⊢
  rw [hreg, ok_bind] at ⊢
  rw [hcount, ok_bind]
  cases hc : mapE (elCount μ lw cfg wk) ((List.range T).map (fun tid => rd (endOf e ls tail T tid) (regionOf ls tail T tid))) with
  | error f => rfl
  | ok counts =>
    rw [ok_bind, ok_bind, hset]
    cases hs : mapE (elSet μ lw cfg wk (prefixSums 0 counts)) ((List.range T).zip
        ((List.range T).map (fun tid => rd (endOf e ls tail T tid) (regionOf ls tail T tid)))) with
    | error f => rfl
    | ok sts =>
      rw [ok_bind, ok_bind]
      have hk : ∀ k, (prefixSums 0 counts).getD (T - 1) 0 % 2 ^ k = total cfg (ls.filterMap ent) % 2 ^ k := by
        intro k
        obtain ⟨gs, _, _, hp⟩ := hplan k
        rw [hreg, ok_bind, hc, ok_bind, hs, ok_bind] at hp
        unfold elPlan at hp
        injection hp with hp
        exact congrArg Plan.m hp
      have hm' := eq_of_mod_pow hk
      unfold sElPlan elPlan
      rw [hm', wrapS_lt hm, ok_bind, Nat.mod_eq_of_lt (Nat.lt_of_lt_of_le hm (pow_pred_le ow))]

/-- Both labels of every entry, plus one, fit a signed type of `lw` bits. -/
def SmallEntries (lw : Nat) (es : List (Nat × Nat × W)) : Prop :=
  ∀ en ∈ es, en.1 + 1 < 2 ^ (lw - 1) ∧ en.2.1 + 1 < 2 ^ (lw - 1)

theorem primary_small {cfg : Cfg} {en p : Nat × Nat × W} {b : Nat}
    (h : Spec.primary cfg.sym cfg.ut cfg.sl en = some p) (hx : en.1 < b) (hy : en.2.1 < b) : p.1 < b ∧ p.2.1 < b := by
  obtain ⟨x, y, w⟩ := en
  obtain ⟨sym, ut, sl⟩ := cfg
  simp only at hx hy
  simp only [Spec.primary, Spec.stored] at h
  have hmin : min x y < b := by omega
  have hmax : max x y < b := by omega
  cases sym <;> cases ut <;> cases sl <;> simp only [Bool.false_eq_true, false_and, true_and, if_false] at h <;>
    (try split at h) <;> (try split at h) <;> simp_all <;> (subst h; exact ⟨by simp_all, by simp_all⟩)

theorem prims_small {lw : Nat} (hlw : 2 ≤ lw) {cfg : Cfg} {es : List (Nat × Nat × W)} (h : SmallEntries lw es) :
    Spec.maxOf ((prims cfg es).map (·.1)) + 1 < 2 ^ (lw - 1) ∧ Spec.maxOf ((prims cfg es).map (·.2.1)) + 1 < 2 ^ (lw - 1) := by
  have hpow : 2 ≤ 2 ^ (lw - 1) := by
    calc 2 = 2 ^ 1 := rfl
      _ ≤ 2 ^ (lw - 1) := Nat.pow_le_pow_right (by omega) (by omega)
  have hp : ∀ p ∈ prims cfg es, p.1 < 2 ^ (lw - 1) - 1 ∧ p.2.1 < 2 ^ (lw - 1) - 1 := by
    intro p hp
    unfold prims at hp
    obtain ⟨en, hen, he⟩ := List.mem_filterMap.mp hp
    have := h en hen
    exact primary_small he (by omega) (by omega)
  constructor
  · have := maxOf_lt (l := (prims cfg es).map (·.1)) (b := 2 ^ (lw - 1) - 1) (by omega)
      (fun a ha => by obtain ⟨p, hp', rfl⟩ := List.mem_map.mp ha; exact (hp p hp').1)
    omega
  · have := maxOf_lt (l := (prims cfg es).map (·.2.1)) (b := 2 ^ (lw - 1) - 1) (by omega)
      (fun a ha => by obtain ⟨p, hp', rfl⟩ := List.mem_map.mp ha; exact (hp p hp').2)
    omega

/-- `read_el_` with signed types on a text of small lines: exactly the executions with unsigned types. -/
theorem sReadEl_iff {μ : Mapping} {e lw ow : Nat} {ls : List (List Byte)} {tail : List Byte} {wk : WKind W}
    {ent : List Byte → Option (Nat × Nat × W)} (cfg : Cfg) {T : Nat} (hT : 0 < T) (hlw : 2 ≤ lw)
    (st : ElState μ e ls tail) (hls : ∀ l ∈ ls, EntOk lw wk ent l) (hsm : SmallLines lw ent ls)
    (hse : SmallEntries lw (ls.filterMap ent))
    (hd : WTrivial wk ∨ ∀ en ∈ ls.filterMap ent, storedC cfg en ≠ [])
    (hm : total cfg (ls.filterMap ent) < 2 ^ (ow - 1)) (out : M (Coo W)) :
    SReadEl μ lw ow cfg wk T (rd e (text ls ++ tail)) out ↔ ReadEl μ lw ow cfg wk T (rd e (text ls ++ tail)) out := by
  obtain ⟨gs, hgs, _, hplan⟩ := readElPlan_eq (ow := ow) cfg hT st hls hd
  obtain ⟨h1, h2⟩ := prims_small hlw (cfg := cfg) hse
  unfold SReadEl ReadEl
  rw [sReadElPlan_same cfg hT st hls hsm hd hm, hplan]
  have hex : ∀ j sched (p : Plan W), p.mr + 1 < 2 ^ (lw - 1) → p.mc + 1 < 2 ^ (lw - 1) →
      sExecPlan lw wk.wgt j p sched = execPlan lw wk.wgt j p sched := by
    intro j sched p h1 h2
    unfold sExecPlan execPlan
    rw [wrapS_lt h1, wrapS_lt h2, Nat.mod_eq_of_lt (Nat.lt_of_lt_of_le h1 (pow_pred_le lw)),
      Nat.mod_eq_of_lt (Nat.lt_of_lt_of_le h2 (pow_pred_le lw))]
    rfl
  constructor
  · rintro ⟨j, sched, hi, rfl⟩
    exact ⟨j, sched, hi, hex j sched _ h1 h2⟩
  · rintro ⟨j, sched, hi, rfl⟩
    exact ⟨j, sched, hi, (hex j sched _ h1 h2).symm⟩

theorem SmallLine.first {lw : Nat} {l : List Byte} (h : SmallLine lw l) : SmallLine lw (firstIntL l) := by
  unfold SmallLine at *
  rwa [firstIntL_idem]

/-- `sReadEl_iff` started at the first integer. -/
theorem sReadEl_first {μ : Mapping} {e lw ow : Nat} {ls : List (List Byte)} {tail : List Byte} {wk : WKind W}
    {ent : List Byte → Option (Nat × Nat × W)} (cfg : Cfg) {T : Nat} (hT : 0 < T) (hlw : 2 ≤ lw)
    (st : ElState μ e ls tail) (hls : ∀ l ∈ ls, EntOk lw wk ent l) (hsm : SmallLines lw ent ls)
    (hse : SmallEntries lw (ls.filterMap ent))
    (hd : WTrivial wk ∨ ∀ en ∈ ls.filterMap ent, storedC cfg en ≠ [])
    (hm : total cfg (ls.filterMap ent) < 2 ^ (ow - 1)) (out : M (Coo W)) :
    SReadEl μ lw ow cfg wk T (rd e (firstIntL (text ls ++ tail))) out ↔
      ReadEl μ lw ow cfg wk T (rd e (firstIntL (text ls ++ tail))) out := by
  by_cases hne : firstIntL (text ls ++ tail) = []
  · rw [hne]
    have st' : ElState μ e [] [] := ⟨by simpa using st.view.of_suffix List.nil_suffix, st.rdb, (fun _ h => nomatch h), (fun h => nomatch h), by show toStop isDigit false [] = []; simp [toStop]⟩
    exact sReadEl_iff (ls := []) (tail := []) (ent := ent) cfg hT hlw st' (by simp) (fun _ h => nomatch h) (fun _ h => nomatch h)
      (.inr (by simp)) (by simpa [total] using Nat.two_pow_pos (ow - 1)) out
  · obtain ⟨A, l, en, B, h1, h2, h3, h4⟩ := region_first ls hls st.tint hne
    have hl := hls l (by rw [h1]; simp)
    have hlaw : LineLaw lw wk l en := by have := hl.2; rw [h3] at this; exact this
    rw [h4]
    let ent' : List Byte → Option (Nat × Nat × W) := fun l' => if l' = firstIntL l then some en else ent l'
    have hB : ∀ l' ∈ B, ent' l' = ent l' := by
      intro l' hl'
      show (if _ then _ else _) = _
      split
      · rename_i heq
        have hk := hls l' (by rw [h1]; simp [hl'])
        have hlaw' := hlaw.first
        rw [← heq] at hlaw'
        cases h5 : ent l' with
        | none =>
          have := hk.2; rw [h5] at this
          exact absurd this hlaw'.hx
        | some en' =>
          have := hk.2; rw [h5] at this
          rw [hlaw'.unique this]
      · rfl
    have hfm : (firstIntL l :: B).filterMap ent' = ls.filterMap ent := by
      have e1 : B.filterMap ent' = B.filterMap ent := by
        clear h1 h2 h4
        induction B with
        | nil => rfl
        | cons b B ih =>
          rw [List.filterMap_cons, List.filterMap_cons, hB b (List.mem_cons_self ..),
            ih (fun l' h => hB l' (List.mem_cons_of_mem _ h))]
      have e2 : ent' (firstIntL l) = some en := if_pos rfl
      rw [List.filterMap_cons_some e2, e1, h1, List.filterMap_append, h2, List.filterMap_cons_some h3]; rfl
    have hsuf : firstIntL l ++ nl :: (text B ++ tail) <:+ text ls ++ tail := by
      rw [← h4]; exact toStop_suffix _ _ _
    have st' : ElState μ e (firstIntL l :: B) tail := by
      refine ⟨?_, st.rdb, ?_, st.tnonl, st.tint⟩
      · rw [text_cons, List.append_assoc, List.cons_append]; exact st.view.of_suffix hsuf
      · intro l' hl'
        rcases List.mem_cons.mp hl' with rfl | hl'
        · exact not_mem_firstInt hl.1
        · exact st.nonl l' (by rw [h1]; simp [hl'])
    rw [← hfm] at hd hm hse
    have htx : firstIntL l ++ nl :: (text B ++ tail) = text (firstIntL l :: B) ++ tail := by
      rw [text_cons, List.append_assoc, List.cons_append]
    rw [htx]
    refine sReadEl_iff cfg hT hlw st' ?_ ?_ hse hd hm out
    · intro l' hl'
      rcases List.mem_cons.mp hl' with rfl | hl'
      · refine ⟨not_mem_firstInt hl.1, ?_⟩
        rw [show ent' (firstIntL l) = some en from if_pos rfl]
        exact hlaw.first
      · have := hls l' (by rw [h1]; simp [hl'])
        refine ⟨this.1, ?_⟩
        rw [hB l' hl']; exact this.2
    · intro l' hl' en' hen'
      rcases List.mem_cons.mp hl' with rfl | hl'
      · exact (hsm l (by rw [h1]; simp) en h3).first
      · rw [hB l' hl'] at hen'
        exact hsm l' (by rw [h1]; simp [hl']) en' hen'

/-- Lines of entries that fit. -/
theorem smallLines_of {lw : Nat} {wk : WKind W} {entry : List Byte → Option (Nat × Nat × W)} {wp : Nat × Nat × W → Prop}
    (hf : Format wk entry wp) {ls : List (List Byte)} (hn : NoNl ls)
    (hwp : ∀ l ∈ ls, ∀ en, Spec.ints l ≠ [] → entry l = some en → wp en ∧ en.1 + 1 < 2 ^ (lw - 1) ∧ en.2.1 + 1 < 2 ^ (lw - 1)) :
    SmallLines lw (entOf lw entry) ls := by
  intro l hl en hen
  unfold entOf at hen
  by_cases hi : Spec.ints l = []
  · rw [if_pos hi] at hen; cases hen
  · rw [if_neg hi] at hen
    cases h : entry l with
    | none => rw [h] at hen; cases hen
    | some en0 =>
      obtain ⟨h1, h2, h3⟩ := hwp l hl en0 hi h
      have hlaw := fun k => hf.ok k l (hn l hl) en0 h h1
      have hx : en0.1 = _ := eq_of_mod_pow (fun k => (hlaw k).xv)
      have hy : en0.2.1 = _ := eq_of_mod_pow (fun k => (hlaw k).yv)
      exact ⟨by rw [← hx]; omega, by rw [← hy]; omega⟩

/-! ## what overflows -/

theorem digitsM_overflow (w : Nat) : ∀ (s : List Byte) (res : Nat), res < 2 ^ (w - 1) →
    2 ^ (w - 1) ≤ (s.takeWhile isDigit).foldl (fun a b => a * 10 + digitVal b) res →
    digitsM (wrapS w) res s = .error .overflow
  | [], res, h0, h => by simp at h; omega
  | c :: s, res, h0, h => by
    rw [digitsM]
    rw [List.takeWhile_cons] at h
    by_cases hc : isDigit c
    · simp only [hc, if_true, List.foldl_cons] at h ⊢
      by_cases hlt : res * 10 + digitVal c < 2 ^ (w - 1)
      · rw [wrapS, if_pos hlt, ok_bind]
        exact digitsM_overflow w s _ hlt h
      · rw [wrapS, if_neg hlt]; rfl
    · simp [hc] at h; omega

theorem readInt_overflow (w : Nat) {s : List Byte} (v : View μ e s)
    (h : 2 ^ (w - 1) ≤ decVal ((toDigitL s).takeWhile isDigit)) : readInt μ (wrapS w) (rd e s) = .error .overflow := by
  rw [readInt_eq _ v, digitsM_overflow w _ _ (Nat.two_pow_pos _) h]; rfl

theorem readInt_line_overflow (lw : Nat) (b : Bool) (s0 u rest : List Byte) (hu : u = toStop isDigit b s0) (hne : u ≠ [])
    (v : View μ e (u ++ nl :: rest)) (h : 2 ^ (lw - 1) ≤ decVal (u.takeWhile isDigit)) :
    readInt μ (wrapS lw) (rd e (u ++ nl :: rest)) = .error .overflow := by
  have ht : toDigitL (u ++ nl :: rest) = u ++ nl :: rest := by
    cases u with
    | nil => exact absurd rfl hne
    | cons c t =>
      have := (toStop_head isDigit b s0 c t hu.symm).1
      simp [toDigitL, this]
  refine readInt_overflow lw v ?_
  rw [ht, takeWhile_append_nl _ isDigit_nl]; exact h

/-- A line with a label that does not fit overflows in pass 2. -/
theorem sSetEntryPlain_overflow {lw : Nat} {wk : WKind W} {l rest : List Byte} {en : Nat × Nat × W} (h : LineLaw lw wk l en)
    (hs : ¬ SmallLine lw l) (v : View μ e (firstIntL l ++ nl :: rest)) (hr : Readable μ e) (st : SetSt W) :
    sSetEntryPlain μ lw wk st (rd e (firstIntL l ++ nl :: rest)) = .error .overflow := by
  have n0 : nl ∉ firstIntL l := not_mem_firstInt h.nonl
  have n1 : nl ∉ (firstIntL l).dropWhile isDigit := not_mem_dropWhile _ n0
  have suf {a b : List Byte} (hs : a <:+ b) : a ++ nl :: rest <:+ b ++ nl :: rest := by
    obtain ⟨t, ht⟩ := hs; exact ⟨t, by rw [← ht]; simp⟩
  have s1 : (firstIntL l).dropWhile isDigit <:+ firstIntL l := dropWhile_suffix' _ _
  have s2 : nextIntL (firstIntL l) <:+ firstIntL l := (toStop_suffix _ _ _).trans s1
  have v1 := v.of_suffix (suf s1)
  have v2 := v.of_suffix (suf s2)
  unfold sSetEntryPlain
  by_cases hx : decVal ((firstIntL l).takeWhile isDigit) < 2 ^ (lw - 1)
  · rw [readInt_line_signed lw false l _ rest rfl h.hx v hx, readInt_line lw false l _ rest rfl h.hx v, ok_bind]
    have hy : ¬ decVal ((nextIntL (firstIntL l)).takeWhile isDigit) < 2 ^ (lw - 1) := fun hy => hs ⟨hx, hy⟩
    have hnx : nextIntL ((firstIntL l).dropWhile isDigit) = nextIntL (firstIntL l) := by
      unfold nextIntL; rw [dropWhile_idem]
    simp only
    rw [moveToNextInt_eq v1 hr, nextIntL_line _ _ n1 (by rw [hnx]; exact h.hy), hnx, ok_bind,
      readInt_line_overflow lw false _ _ rest rfl h.hy v2 (Nat.le_of_not_lt hy)]
    rfl
  · rw [readInt_line_overflow lw false l _ rest rfl h.hx v (Nat.le_of_not_lt hx)]; rfl

section
variable {lw : Nat} {wk : WKind W} {ent : List Byte → Option (Nat × Nat × W)} {g : List Byte}

/-- If pass 2 over a region ends normally then all its labels fit. -/
theorem sSet_small (hr : Readable μ e) (hg : firstIntL g = []) :
    ∀ (n : Nat) (ls : List (List Byte)) (st : SetSt W) (p : SetSt W × Reader), (∀ l ∈ ls, EntOk lw wk ent l) →
    View μ e (firstIntL (text ls ++ g)) →
    whileGood (sSetEntry μ lw {} wk) n st (rd e (firstIntL (text ls ++ g))) = .ok p → SmallLines lw ent ls
  | n, ls, st, p, hls, v, h => by
    by_cases hne : firstIntL (text ls ++ g) = []
    · intro l hl en hen
      exfalso
      clear h
      induction ls with
      | nil => cases hl
      | cons a ls ih =>
        cases ha : ent a with
        | none =>
          rw [region_blank (hls a (List.mem_cons_self ..)) ha] at hne v
          rcases List.mem_cons.mp hl with rfl | hl
          · rw [ha] at hen; cases hen
          · exact ih (fun l h => hls l (List.mem_cons_of_mem _ h)) v hne hl
        | some en' =>
          rw [region_entry (hls a (List.mem_cons_self ..)) ha] at hne
          simp at hne
    · have hgood : (rd e (firstIntL (text ls ++ g))).good = true := by
        rw [good_rd v]; simp [hne]
      cases n with
      | zero => rw [whileGood, if_pos hgood] at h; cases h
      | succ n =>
        obtain ⟨A, l, en, B, h1, h2, h3, h4⟩ := region_first ls hls hg hne
        have hl : EntOk lw wk ent l := hls l (by rw [h1]; simp)
        have hlaw : LineLaw lw wk l en := by have := hl.2; rwa [h3] at this
        have hB : ∀ l ∈ B, EntOk lw wk ent l := fun l hl => hls l (by rw [h1]; simp [hl])
        have hpl : sSetEntry μ lw {} wk = sSetEntryPlain μ lw wk := by
          funext st r; rfl
        rw [whileGood, if_pos hgood, hpl] at h
        rw [h4] at v h
        by_cases hs : SmallLine lw l
        · have hrun := lineRun hlaw v hr
          rw [sSetEntryPlain_line (sameReads hlaw hs v hr) hrun] at h
          rw [setEntryPlain_line {} rfl hrun, ok_bind] at h
          simp only at h
          rw [← hpl] at h
          have vB : View μ e (firstIntL (text B ++ g)) := by
            refine v.of_suffix ?_
            exact ((toStop_suffix _ _ _).trans (List.suffix_cons _ _)).trans (List.suffix_append _ _)
          have ih := sSet_small hr hg n B _ p hB vB h
          intro l' hl' en' hen'
          rw [h1] at hl'
          rcases List.mem_append.mp hl' with hA | hl'
          · exfalso
            have : en' ∈ A.filterMap ent := List.mem_filterMap.mpr ⟨l', hA, hen'⟩
            rw [h2] at this; cases this
          · rcases List.mem_cons.mp hl' with rfl | hl'
            · exact hs
            · exact ih l' hl' en' hen'
        · rw [sSetEntryPlain_overflow hlaw hs v hr] at h
          cases h

end

theorem mapE_each {α β : Type} {f : α → M β} : ∀ (l : List α) {bs : List β}, mapE f l = .ok bs → ∀ a ∈ l, ∃ b, f a = .ok b
  | a :: l, bs, h, x, hx => by
    simp only [mapE] at h
    cases hf : f a with
    | error e => rw [hf] at h; cases h
    | ok b =>
      rw [hf, ok_bind] at h
      cases hm : mapE f l with
      | error e => rw [hm] at h; cases h
      | ok bs' =>
        rcases List.mem_cons.mp hx with rfl | hx
        · exact ⟨b, hf⟩
        · exact mapE_each l hm x hx

/-- If `read_el_` without flags ends normally with signed types then all labels of the text fit. -/
theorem sReadElPlan_small {μ : Mapping} {e lw ow : Nat} {ls : List (List Byte)} {tail : List Byte} {wk : WKind W}
    {ent : List Byte → Option (Nat × Nat × W)} {T : Nat} (hT : 0 < T)
    (st : ElState μ e ls tail) (hls : ∀ l ∈ ls, EntOk lw wk ent l) {p : Plan W}
    (h : sReadElPlan μ lw ow {} wk T (rd e (text ls ++ tail)) = .ok p) : SmallLines lw ent ls := by
  have hsegmem : ∀ tid, ∀ l ∈ segLines (text ls ++ tail) ls T tid, l ∈ ls :=
    fun tid l hl => List.mem_of_mem_drop (List.mem_of_mem_take hl)
  have hreg : mapE (elRegion μ (rd e (text ls ++ tail)) T) (List.range T) =
      .ok ((List.range T).map (fun tid => rd (endOf e ls tail T tid) (regionOf ls tail T tid))) :=
    mapE_ok _ _ _ (fun tid ht => (elRegion_eq st (List.mem_range.mp ht)).1)
  unfold sReadElPlan at h
  rw [hreg, ok_bind] at h
  cases hc : mapE (sElCount μ lw {} wk) ((List.range T).map (fun tid => rd (endOf e ls tail T tid) (regionOf ls tail T tid))) with
  | error f => rw [hc] at h; cases h
  | ok counts =>
    rw [hc, ok_bind] at h
    cases hs : mapE (sElSet μ lw {} wk (prefixSums 0 counts)) ((List.range T).zip
        ((List.range T).map (fun tid => rd (endOf e ls tail T tid) (regionOf ls tail T tid)))) with
    | error f => rw [hs] at h; cases h
    | ok sts =>
      rw [zip_map_self] at hs
      have hseg : ∀ tid, tid < T → SmallLines lw ent (segLines (text ls ++ tail) ls T tid) := by
        intro tid ht
        obtain ⟨_, v, r⟩ := elRegion_eq st ht
        obtain ⟨b, hb⟩ := mapE_each _ hs _ (List.mem_map.mpr ⟨tid, List.mem_range.mpr ht, rfl⟩)
        unfold sElSet at hb
        unfold regionOf at v hb
        simp only at hb
        generalize hn : (rd (endOf e ls tail T tid) _).e - _ = n at hb
        clear hn
        cases hw : whileGood (sSetEntry μ lw {} wk) n ({ pos := startOf (prefixSums 0 counts) tid } : SetSt W)
            (rd (endOf e ls tail T tid) (firstIntL (text (segLines (text ls ++ tail) ls T tid) ++
              garb (text (ls.drop (lineOf (text ls ++ tail) T (tid+1))) ++ tail)))) with
        | error f => rw [hw] at hb; cases hb
        | ok q => exact sSet_small r (garb_spec _).2 _ _ _ q (fun l hl => hls l (hsegmem tid l hl)) v hw
      intro l hl en hen
      rw [← seg_all ls tail st.nonl T hT] at hl
      obtain ⟨sg, hsg, hl⟩ := List.mem_flatten.mp hl
      obtain ⟨tid, ht, rfl⟩ := List.mem_map.mp hsg
      exact hseg tid (List.mem_range.mp ht) l hl en hen

end Pigo
