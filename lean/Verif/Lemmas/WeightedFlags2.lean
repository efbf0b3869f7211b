import Verif.Lemmas.WeightedFlags

/-!
# Loading arbitrary bytes with flags and any kind of weights: the loader
-/

namespace Pigo

variable {W : Type} {μ : Mapping} {e : Nat} {ov : Prop}

theorem countN_safe {lw : Nat} {cfg : Cfg} {wk : WKind W} (hw : SafeW ov wk μ e) (hr : Readable μ e) :
    ∀ (n : Nat) (s : List Byte), s.length < n → View μ e s → ∀ pos, ∃ k s', countEntryN μ lw cfg wk n pos (rd e s) = .ok (pos + k, rd e s') ∧ s' <:+ s ∧
      k + s'.length ≤ s.length ∧ (s ≠ [] → s'.length < s.length) ∧ AtNum s' := by
  intro n
  induction n with
  | zero => intro s h; omega
  | succ n ih =>
    intro s hn v pos
    obtain ⟨x, s1, h1, e1⟩ := readInt_any lw v
    have v1 : View μ e s1 := v.of_suffix (by rw [e1]; exact toDigitL_suffix s)
    have h2 := moveToNextInt_eq v1 hr
    have v2 : View μ e (nextIntL s1) := v1.of_suffix (nextIntL_suffix _)
    obtain ⟨y, s3, h3, e3⟩ := readInt_any lw v2
    have v3 : View μ e s3 := v2.of_suffix (by rw [e3]; exact toDigitL_suffix _)
    have suf3 : s3 <:+ s := by
      rw [e3]; refine (toDigitL_suffix _).trans ((nextIntL_suffix _).trans ?_)
      rw [e1]; exact toDigitL_suffix s
    obtain ⟨s4, suf4, h4⟩ := hw.count s3 v3
    have v4 := v3.of_suffix suf4
    simp only [countEntryN, h1, ok_bind, h2, h3, h4, good_rd v4]
    cases hs4 : s4 with
    | nil =>
      refine ⟨0, [], by simp, List.nil_suffix, by simp, fun h => List.length_pos_iff.mpr h, fun c t h => by cases h⟩
    | cons c4 t4 =>
      rw [hs4] at suf4 v4
      have h5 := moveToEol_eq v4
      have v5 : View μ e (eolL (c4 :: t4)) := v4.of_suffix (dropWhile_suffix' _ _)
      have h6 := moveToNextInt_eq v5 hr
      have v6 : View μ e (nextLineL (c4 :: t4)) := v5.of_suffix (nextIntL_suffix _)
      have hd6 : AtNum (nextLineL (c4 :: t4)) := atNum_nextLine _
      have suf6 : nextLineL (c4 :: t4) <:+ s := (nextIntL_suffix _).trans ((dropWhile_suffix' _ _).trans (suf4.trans suf3))
      have hl3 : t4.length + 3 ≤ s.length := by
        have hl4 := suf4.length_le
        have hne : s3 ≠ [] := by rintro h; rw [h] at suf4; simp at suf4
        cases s with
        | nil => rw [List.suffix_nil] at suf3; exact absurd suf3 hne
        | cons c s =>
          have a1 : s1.length ≤ s.length := by rw [e1]; exact toDigitL_length
          cases hs2 : nextIntL s1 with
          | nil => rw [e3, hs2] at hne; exact absurd rfl hne
          | cons c2 t2 =>
            have a2 : s3.length ≤ t2.length := by rw [e3, hs2]; exact toDigitL_length
            have a3 := (nextIntL_suffix s1).length_le
            rw [hs2] at a3
            simp only [List.length_cons] at a2 a3 hl4 ⊢
            omega
      have hl6 : (nextLineL (c4 :: t4)).length ≤ t4.length := nextLineL_length
      simp only [List.isEmpty_cons, Bool.not_false, Bool.not_true, h5, h6, ok_bind, Bool.false_eq_true, if_false]
      have drop : ∃ k s', countEntryN μ lw cfg wk n pos (rd e (nextLineL (c4 :: t4))) = .ok (pos + k, rd e s') ∧ s' <:+ s ∧
          k + s'.length ≤ s.length ∧ (s ≠ [] → s'.length < s.length) ∧ AtNum s' := by
        obtain ⟨k, s', i1, i2, i3, i4, i5⟩ := ih (nextLineL (c4 :: t4)) (by omega) v6 pos
        have := i2.length_le
        exact ⟨k, s', i1, i2.trans suf6, by omega, fun _ => by omega, i5⟩
      split
      · exact drop
      · split
        · exact drop
        · split
          · exact ⟨2, nextLineL (c4 :: t4), rfl, suf6, by omega, fun _ => by omega, hd6⟩
          · exact ⟨1, nextLineL (c4 :: t4), rfl, suf6, by omega, fun _ => by omega, hd6⟩

theorem count_safe {lw : Nat} {cfg : Cfg} {wk : WKind W} (hw : SafeW ov wk μ e) (hr : Readable μ e) {s : List Byte} (v : View μ e s) (hs : AtNum s) (pos : Nat) :
    ∃ k s', countEntry μ lw cfg wk pos (rd e s) = .ok (pos + k, rd e s') ∧ s' <:+ s ∧ k + s'.length ≤ s.length ∧ (s ≠ [] → s'.length < s.length) ∧ AtNum s' := by
  unfold countEntry
  split
  · unfold countEntryPlain
    have v1 : View μ e (nextIntL s) := v.of_suffix (nextIntL_suffix _)
    rw [moveToNextInt_eq v hr, ok_bind, good_rd v1]
    cases h1 : nextIntL s with
    | nil => exact ⟨0, [], by simp, List.nil_suffix, by simp, fun h => List.length_pos_iff.mpr h, fun c t h => by cases h⟩
    | cons c t =>
      rw [h1] at v1
      have hne : s ≠ [] := by rintro rfl; simp [nextIntL, toStop] at h1
      have hlt := nextInt_short hs hne
      rw [h1] at hlt
      have hsuf : nextLineL (c :: t) <:+ s := (nextIntL_suffix _).trans ((dropWhile_suffix' _ _).trans (h1 ▸ nextIntL_suffix s))
      have hl6 : (nextLineL (c :: t)).length ≤ t.length := nextLineL_length
      simp only [List.length_cons] at hlt
      simp only [List.isEmpty_cons, Bool.not_false, Bool.not_true, Bool.false_eq_true, if_false, moveToEol_eq v1, ok_bind,
        moveToNextInt_eq (v1.of_suffix (dropWhile_suffix' _ _)) hr]
      exact ⟨1, nextLineL (c :: t), rfl, hsuf, by omega, fun _ => by omega, atNum_nextLine _⟩
  · rw [v.sub]; exact countN_safe hw hr _ s (by omega) v pos

/-- What pass 2 makes of one entry: an overflow of a signed weight, or a shorter text. -/
def SetOk (ov : Prop) (e : Nat) (s : List Byte) (o : M (SetSt W × Reader)) : Prop :=
  (ov ∧ o = .error .overflow) ∨ ∃ st' s', o = .ok (st', rd e s') ∧ s' <:+ s ∧ (s ≠ [] → s'.length < s.length)

theorem setN_safe {lw : Nat} {cfg : Cfg} {wk : WKind W} (hw : SafeW ov wk μ e) (hr : Readable μ e) :
    ∀ (n : Nat) (s : List Byte), s.length < n → View μ e s → ∀ st, SetOk ov e s (setEntryN μ lw cfg wk n st (rd e s)) := by
  intro n
  induction n with
  | zero => intro s h; omega
  | succ n ih =>
    intro s hn v st
    obtain ⟨x, s1, h1, e1⟩ := readInt_any lw v
    have v1 : View μ e s1 := v.of_suffix (by rw [e1]; exact toDigitL_suffix s)
    have h2 := moveToNextInt_eq v1 hr
    have v2 : View μ e (nextIntL s1) := v1.of_suffix (nextIntL_suffix _)
    obtain ⟨y, s3, h3, e3⟩ := readInt_any lw v2
    have v3 : View μ e s3 := v2.of_suffix (by rw [e3]; exact toDigitL_suffix _)
    have suf3 : s3 <:+ s := by
      rw [e3]; refine (toDigitL_suffix _).trans ((nextIntL_suffix _).trans ?_)
      rw [e1]; exact toDigitL_suffix s
    simp only [setEntryN, setWgt, h1, ok_bind, h2, h3]
    rcases hw.read s3 v3 with ⟨ho, h4⟩ | ⟨w, s4, suf4, h4⟩
    · rw [h4]; exact .inl ⟨ho, rfl⟩
    have v4 := v3.of_suffix suf4
    simp only [h4, ok_bind, good_rd v4]
    cases hs4 : s4 with
    | nil => exact .inr ⟨_, [], rfl, List.nil_suffix, fun h => List.length_pos_iff.mpr h⟩
    | cons c4 t4 =>
      rw [hs4] at suf4 v4
      have h5 := moveToEol_eq v4
      have v5 : View μ e (eolL (c4 :: t4)) := v4.of_suffix (dropWhile_suffix' _ _)
      have h6 := moveToNextInt_eq v5 hr
      have v6 : View μ e (nextLineL (c4 :: t4)) := v5.of_suffix (nextIntL_suffix _)
      have suf6 : nextLineL (c4 :: t4) <:+ s := (nextIntL_suffix _).trans ((dropWhile_suffix' _ _).trans (suf4.trans suf3))
      have hl3 : t4.length + 1 ≤ s.length := by simpa using (suf4.trans suf3).length_le
      have hl6 : (nextLineL (c4 :: t4)).length ≤ t4.length := nextLineL_length
      simp only [List.isEmpty_cons, Bool.not_false, Bool.not_true, h5, h6, ok_bind, Bool.false_eq_true, if_false]
      have drop : ∀ st, SetOk ov e s (setEntryN μ lw cfg wk n st (rd e (nextLineL (c4 :: t4)))) := by
        intro st
        rcases ih (nextLineL (c4 :: t4)) (by omega) v6 st with h | ⟨st', s', i1, i2, i3⟩
        · exact .inl h
        · have := i2.length_le
          exact .inr ⟨st', s', i1, i2.trans suf6, fun _ => by omega⟩
      split
      · exact drop _
      · split
        · exact drop _
        · exact .inr ⟨_, nextLineL (c4 :: t4), rfl, suf6, fun _ => by omega⟩

theorem set_safe {lw : Nat} {cfg : Cfg} {wk : WKind W} (hw : SafeW ov wk μ e) (hr : Readable μ e) {s : List Byte} (v : View μ e s) (st : SetSt W) :
    SetOk ov e s (setEntry μ lw cfg wk st (rd e s)) := by
  unfold setEntry
  split
  · unfold setEntryPlain
    obtain ⟨x, s1, h1, e1⟩ := readInt_any lw v
    have v1 : View μ e s1 := v.of_suffix (by rw [e1]; exact toDigitL_suffix s)
    have h2 := moveToNextInt_eq v1 hr
    have v2 : View μ e (nextIntL s1) := v1.of_suffix (nextIntL_suffix _)
    obtain ⟨y, s3, h3, e3⟩ := readInt_any lw v2
    have v3 : View μ e s3 := v2.of_suffix (by rw [e3]; exact toDigitL_suffix _)
    have suf3 : s3 <:+ s := by
      rw [e3]; refine (toDigitL_suffix _).trans ((nextIntL_suffix _).trans ?_)
      rw [e1]; exact toDigitL_suffix s
    simp only [setWgt, h1, ok_bind, h2, h3]
    rcases hw.read s3 v3 with ⟨ho, h4⟩ | ⟨w, s4, suf4, h4⟩
    · rw [h4]; exact .inl ⟨ho, rfl⟩
    have v4 := v3.of_suffix suf4
    simp only [h4, ok_bind, good_rd v4]
    cases hs4 : s4 with
    | nil => exact .inr ⟨_, [], rfl, List.nil_suffix, fun h => List.length_pos_iff.mpr h⟩
    | cons c4 t4 =>
      rw [hs4] at suf4 v4
      have h5 := moveToEol_eq v4
      have v5 : View μ e (eolL (c4 :: t4)) := v4.of_suffix (dropWhile_suffix' _ _)
      have h6 := moveToNextInt_eq v5 hr
      have suf6 : nextLineL (c4 :: t4) <:+ s := (nextIntL_suffix _).trans ((dropWhile_suffix' _ _).trans (suf4.trans suf3))
      have hl3 : t4.length + 1 ≤ s.length := by simpa using (suf4.trans suf3).length_le
      have hl6 : (nextLineL (c4 :: t4)).length ≤ t4.length := nextLineL_length
      simp only [List.isEmpty_cons, Bool.not_false, Bool.not_true, h5, h6, ok_bind, Bool.false_eq_true, if_false]
      exact .inr ⟨_, nextLineL (c4 :: t4), rfl, suf6, fun _ => by omega⟩
  · rw [v.sub]; exact setN_safe hw hr _ s (by omega) v st

theorem countLoop_safe {lw : Nat} {cfg : Cfg} {wk : WKind W} (hw : SafeW ov wk μ e) (hr : Readable μ e) :
    ∀ (n : Nat) (s : List Byte), s.length ≤ n → View μ e s → AtNum s → ∀ pos, ∃ k, whileGood (countEntry μ lw cfg wk) n pos (rd e s) = .ok (pos + k, rd e []) ∧ k ≤ s.length := by
  intro n
  induction n with
  | zero =>
    intro s hs v _ pos
    have : s = [] := List.length_eq_zero_iff.mp (by omega)
    subst this
    exact ⟨0, by simp [whileGood, good_rd v], by simp⟩
  | succ n ih =>
    intro s hs v ha pos
    cases s with
    | nil => exact ⟨0, by simp [whileGood, good_rd v], by simp⟩
    | cons c s =>
      obtain ⟨k, s', i1, i2, i3, i4, i5⟩ := count_safe (lw := lw) (cfg := cfg) hw hr v ha pos
      have hg : (rd e (c :: s)).good = true := by rw [good_rd v]; rfl
      obtain ⟨k2, j1, j2⟩ := ih s' (by have := i4 (by simp); simp at hs this; omega) (v.of_suffix i2) i5 (pos + k)
      refine ⟨k + k2, ?_, by omega⟩
      rw [whileGood, if_pos hg, i1, ok_bind]; simp only; rw [j1, Nat.add_assoc]

theorem setLoop_safe {lw : Nat} {cfg : Cfg} {wk : WKind W} (hw : SafeW ov wk μ e) (hr : Readable μ e) :
    ∀ (n : Nat) (s : List Byte), s.length ≤ n → View μ e s → ∀ st, (ov ∧ whileGood (setEntry μ lw cfg wk) n st (rd e s) = .error .overflow) ∨
      ∃ st', whileGood (setEntry μ lw cfg wk) n st (rd e s) = .ok (st', rd e []) := by
  intro n
  induction n with
  | zero =>
    intro s hs v st
    have : s = [] := List.length_eq_zero_iff.mp (by omega)
    subst this
    exact .inr ⟨st, by simp [whileGood, good_rd v]⟩
  | succ n ih =>
    intro s hs v st
    cases s with
    | nil => exact .inr ⟨st, by simp [whileGood, good_rd v]⟩
    | cons c s =>
      have hg : (rd e (c :: s)).good = true := by rw [good_rd v]; rfl
      rw [whileGood, if_pos hg]
      rcases set_safe (lw := lw) (cfg := cfg) hw hr v st with ⟨ho, h⟩ | ⟨st', s', i1, i2, i3⟩
      · rw [h]; exact .inl ⟨ho, rfl⟩
      · rw [i1, ok_bind]
        exact ih s' (by have := i3 (by simp); simp at hs this; omega) (v.of_suffix i2) st'

theorem mapE_over {α β : Type} (f : α → M β) : ∀ l : List α, (∀ a ∈ l, (ov ∧ f a = .error .overflow) ∨ ∃ b, f a = .ok b) →
    (ov ∧ mapE f l = .error .overflow) ∨ ∃ bs, mapE f l = .ok bs
  | [], _ => .inr ⟨[], rfl⟩
  | a :: l, h => by
    rcases h a (List.mem_cons_self ..) with ⟨ho, h1⟩ | ⟨b, h1⟩
    · rw [mapE, h1]; exact .inl ⟨ho, rfl⟩
    · rw [mapE, h1, ok_bind]
      rcases mapE_over f l (fun a ha => h a (List.mem_cons_of_mem _ ha)) with ⟨ho, h2⟩ | ⟨bs, h2⟩
      · rw [h2]; exact .inl ⟨ho, rfl⟩
      · rw [h2]; exact .inr ⟨_, rfl⟩

/-- Number of entries that pass 1 counts in the region of a thread. -/
def cntW (μ : Mapping) (e lw : Nat) (cfg : Cfg) (wk : WKind W) (s : List Byte) (T tid : Nat) : Nat :=
  match elCount μ lw cfg wk (rd (e - (startL s T (tid+1)).length) (regL s T tid)) with
  | .ok k => k
  | .error _ => 0

theorem region_safe {lw : Nat} {cfg : Cfg} {wk : WKind W} (hw : ∀ e, EndB μ e → SafeW ov wk μ e) {s : List Byte} (v : View μ e s) (he : EndB μ e) {T tid : Nat} (ht : tid < T)
    (offs : List Nat) :
    elRegion μ (rd e s) T tid = .ok (rd (e - (startL s T (tid+1)).length) (regL s T tid)) ∧
    elCount μ lw cfg wk (rd (e - (startL s T (tid+1)).length) (regL s T tid)) = .ok (cntW μ e lw cfg wk s T tid) ∧
    cntW μ e lw cfg wk s T tid + (startL s T (tid+1)).length ≤ (startL s T tid).length ∧
    ((ov ∧ elSet μ lw cfg wk offs (tid, rd (e - (startL s T (tid+1)).length) (regL s T tid)) = .error .overflow) ∨
      ∃ st, elSet μ lw cfg wk offs (tid, rd (e - (startL s T (tid+1)).length) (regL s T tid)) = .ok st) := by
  obtain ⟨R, h1, h2, h3, h4⟩ := elRegion_any v he.readable ht
  have hR : regL s T tid = R := by
    unfold regL
    rw [h1]
    simp
  have hA := atNum_regL s T tid
  have hend := region_end v he ht
  rw [hR] at hA
  obtain ⟨k, i1, i2⟩ := countLoop_safe (lw := lw) (cfg := cfg) (hw _ hend) h4 R.length R (Nat.le_refl _) h3 hA 0
  have hc : elCount μ lw cfg wk (rd (e - (startL s T (tid+1)).length) R) = .ok k := by
    unfold elCount; rw [h3.sub, i1]; simp
  have hk : cntW μ e lw cfg wk s T tid = k := by unfold cntW; rw [hR, hc]
  rw [hk, hR]
  refine ⟨h2, hc, by rw [h1, List.length_append]; omega, ?_⟩
  unfold elSet
  simp only [h3.sub]
  rcases setLoop_safe (lw := lw) (cfg := cfg) (hw _ hend) h4 R.length R (Nat.le_refl _) h3 { pos := startOf offs tid } with ⟨ho, h⟩ | ⟨st, h⟩
  · rw [h]; exact .inl ⟨ho, rfl⟩
  · rw [h]; exact .inr ⟨_, rfl⟩

/-- The plan of `read_el_` on arbitrary bytes, with any flags and weights. -/
theorem readElPlan_safe {lw ow T : Nat} {cfg : Cfg} {wk : WKind W} (hw : ∀ e, EndB μ e → SafeW ov wk μ e) {s : List Byte} (v : View μ e s) (he : EndB μ e) (hT : 0 < T) :
    (ov ∧ readElPlan μ lw ow cfg wk T (rd e s) = .error .overflow) ∨ ∃ p, readElPlan μ lw ow cfg wk T (rd e s) = .ok p ∧ p.m ≤ s.length := by
  have hreg : mapE (elRegion μ (rd e s) T) (List.range T) =
      .ok ((List.range T).map (fun tid => rd (e - (startL s T (tid+1)).length) (regL s T tid))) :=
    mapE_ok _ _ _ (fun tid ht => (region_safe (lw := lw) (cfg := cfg) hw v he (List.mem_range.mp ht) []).1)
  have hcnt : mapE (elCount μ lw cfg wk)
      ((List.range T).map (fun tid => rd (e - (startL s T (tid+1)).length) (regL s T tid))) =
      .ok ((List.range T).map (cntW μ e lw cfg wk s T)) := by
    have : ∀ l : List Nat, (∀ tid ∈ l, tid < T) → mapE (elCount μ lw cfg wk)
      (l.map (fun tid => rd (e - (startL s T (tid+1)).length) (regL s T tid))) = .ok (l.map (cntW μ e lw cfg wk s T)) := by
      intro l
      induction l with
      | nil => intro _; rfl
      | cons a l ih =>
        intro h
        have ha := (region_safe (lw := lw) (cfg := cfg) hw v he (h a (List.mem_cons_self ..)) []).2.1
        simp only [List.map_cons, mapE, ha, ok_bind, ih (fun t ht => h t (List.mem_cons_of_mem _ ht))]
    exact this _ (fun t ht => List.mem_range.mp ht)
  have hsum : ∀ k, k ≤ T → ((List.range k).map (cntW μ e lw cfg wk s T)).sum + (startL s T k).length ≤ s.length := by
    intro k
    induction k with
    | zero =>
      intro _
      have : (firstIntL s).length ≤ s.length := (toStop_suffix isDigit false s).length_le
      simpa [startL] using this
    | succ k ih =>
      intro hk
      have ih := ih (by omega)
      have := (region_safe (lw := lw) (cfg := cfg) hw v he (tid := k) (T := T) (by omega) []).2.2.1
      rw [List.range_succ, List.map_append, List.sum_append]
      simp only [List.map_cons, List.map_nil, List.sum_cons, List.sum_nil]
      omega
  have hlen : ((List.range T).map (cntW μ e lw cfg wk s T)).length = T := by simp
  have hM : (prefixSums 0 ((List.range T).map (cntW μ e lw cfg wk s T))).getD (T - 1) 0 ≤ s.length := by
    rw [prefixSums_getD _ _ _ (by rw [hlen]; omega), List.take_of_length_le (by rw [hlen]; omega)]
    have := hsum T (Nat.le_refl _)
    omega
  unfold readElPlan
  rw [hreg, ok_bind, hcnt, ok_bind, zip_map_self]
  rcases mapE_over (elSet μ lw cfg wk (prefixSums 0 ((List.range T).map (cntW μ e lw cfg wk s T))))
      ((List.range T).map (fun tid => (tid, rd (e - (startL s T (tid+1)).length) (regL s T tid)))) (by
        intro a ha
        obtain ⟨tid, ht, rfl⟩ := List.mem_map.mp ha
        exact (region_safe hw v he (List.mem_range.mp ht) _).2.2.2) with ⟨ho, h⟩ | ⟨sts, h⟩
  · rw [h]; exact .inl ⟨ho, rfl⟩
  · rw [h]
    exact .inr ⟨_, rfl, Nat.le_trans (Nat.mod_le _ _) hM⟩

/-- A store (and the load of a copy) inside of arrays of `m` and `mw` entries. -/
def fits (m mw : Nat) : Act W → Prop
  | .setX i _ => i < m
  | .setY i _ => i < m
  | .setW i _ => i < mw
  | .copyW d c => d < mw ∧ c < mw

theorem run_fits {m mw : Nat} : ∀ (acts : List (Act W)) (s : Mem W), s.x.length = m → s.y.length = m → s.w.length = mw →
    ((∀ a ∈ acts, fits m mw a) → ∃ s', runActs stepAct acts s = .ok s' ∧ s'.x.length = m ∧ s'.y.length = m ∧ s'.w.length = mw) ∧
    ((∃ a ∈ acts, ¬ fits m mw a) → runActs stepAct acts s = .error .oob)
  | [], s, hx, hy, hw => ⟨fun _ => ⟨s, rfl, hx, hy, hw⟩, fun ⟨a, h, _⟩ => by cases h⟩
  | a :: acts, s, hx, hy, hw => by
    have key : (fits m mw a ∧ ∃ s1, stepAct a s = .ok s1 ∧ s1.x.length = m ∧ s1.y.length = m ∧ s1.w.length = mw) ∨ (¬ fits m mw a ∧ stepAct a s = .error .oob) := by
      cases a with
      | setX i v =>
        by_cases h : i < m
        · exact .inl ⟨h, { s with x := s.x.set i v }, by simp only [stepAct, store_ok (show i < s.x.length by omega), ok_bind], by simpa using hx, hy, hw⟩
        · exact .inr ⟨h, by simp only [stepAct, store_bad (show s.x.length ≤ i by omega)]; rfl⟩
      | setY i v =>
        by_cases h : i < m
        · exact .inl ⟨h, { s with y := s.y.set i v }, by simp only [stepAct, store_ok (show i < s.y.length by omega), ok_bind], hx, by simpa using hy, hw⟩
        · exact .inr ⟨h, by simp only [stepAct, store_bad (show s.y.length ≤ i by omega)]; rfl⟩
      | setW i v =>
        by_cases h : i < mw
        · exact .inl ⟨h, { s with w := s.w.set i v }, by simp only [stepAct, store_ok (show i < s.w.length by omega), ok_bind], hx, hy, by simpa using hw⟩
        · exact .inr ⟨h, by simp only [stepAct, store_bad (show s.w.length ≤ i by omega)]; rfl⟩
      | copyW d c =>
        by_cases hc : c < mw
        · have hg : s.w[c]? = some s.w[c] := List.getElem?_eq_getElem (by omega)
          by_cases h : d < mw
          · exact .inl ⟨⟨h, hc⟩, { s with w := s.w.set d s.w[c] }, by simp only [stepAct, hg, store_ok (show d < s.w.length by omega), ok_bind], hx, hy, by simpa using hw⟩
          · exact .inr ⟨fun hh => h hh.1, by simp only [stepAct, hg, store_bad (show s.w.length ≤ d by omega)]; rfl⟩
        · have hg : s.w[c]? = none := List.getElem?_eq_none (by omega)
          exact .inr ⟨fun hh => hc hh.2, by simp only [stepAct, hg]⟩
    rw [runActs]
    rcases key with ⟨hf, s1, e1, hx1, hy1, hw1⟩ | ⟨hf, e1⟩
    · obtain ⟨i1, i2⟩ := run_fits acts s1 hx1 hy1 hw1
      rw [e1, ok_bind]
      refine ⟨fun h => i1 (fun b hb => h b (List.mem_cons_of_mem _ hb)), fun ⟨b, hb, hn⟩ => i2 ?_⟩
      rcases List.mem_cons.mp hb with rfl | hb
      · exact absurd hf hn
      · exact ⟨b, hb, hn⟩
    · rw [e1]
      exact ⟨fun h => absurd (h a (List.mem_cons_self ..)) hf, fun _ => rfl⟩

/-- Whether the stores of a plan fit does not depend on the schedule, nor on the memory. -/
theorem exec_uniform (lw : Nat) (wgt : Bool) (p : Plan W) :
    (∀ j sched, Interleave p.threads sched → execPlan lw wgt j p sched = .error .oob) ∨
    ∀ j sched, Interleave p.threads sched → ∃ c, execPlan lw wgt j p sched = .ok c ∧ c.m = p.m ∧ c.x.length = p.m ∧ c.y.length = p.m ∧ c.w.length = (if wgt then p.m else 0) := by
  by_cases h : ∀ l ∈ p.threads, ∀ a ∈ l, fits p.m (if wgt then p.m else 0) a
  · right
    intro j sched hint
    obtain ⟨s', e1, a1, a2, a3⟩ := (run_fits (m := p.m) (mw := if wgt then p.m else 0) sched (allocCoo wgt j p.m) (by simp [allocCoo, alloc]) (by simp [allocCoo, alloc])
      (by cases wgt <;> simp [allocCoo, alloc])).1 (fun a ha => by obtain ⟨l, hl, hal⟩ := hint.mem a ha; exact h l hl a hal)
    unfold execPlan
    rw [e1]
    exact ⟨_, rfl, rfl, a1, a2, a3⟩
  · left
    intro j sched hint
    have h' : ∃ l ∈ p.threads, ∃ a ∈ l, ¬ fits p.m (if wgt then p.m else 0) a := by
      refine Classical.byContradiction fun hn => h fun l hl a ha => Classical.byContradiction fun hf => hn ⟨l, hl, a, ha, hf⟩
    obtain ⟨l, hl, a, ha, hf⟩ := h'
    have hm : a ∈ sched := hint.perm.mem_iff.mpr (List.mem_flatten.mpr ⟨l, hl, ha⟩)
    have := (run_fits (m := p.m) (mw := if wgt then p.m else 0) sched (allocCoo wgt j p.m) (by simp [allocCoo, alloc]) (by simp [allocCoo, alloc])
      (by cases wgt <;> simp [allocCoo, alloc])).2 ⟨a, hm, hf⟩
    unfold execPlan
    rw [this]
    rfl

/-- Loading arbitrary bytes, any flags and weights. -/
theorem readEl_uniform {lw ow T : Nat} {cfg : Cfg} {wk : WKind W} (hw : ∀ e, EndB μ e → SafeW ov wk μ e) {s : List Byte} (v : View μ e s) (he : EndB μ e) (hT : 0 < T) :
    (ov ∧ ∀ out, ReadEl μ lw ow cfg wk T (rd e s) out → out = .error .overflow) ∨
    (∀ out, ReadEl μ lw ow cfg wk T (rd e s) out → out = .error .oob) ∨
    ∃ m ≤ s.length, ∀ out, ReadEl μ lw ow cfg wk T (rd e s) out →
      ∃ c, out = .ok c ∧ c.m = m ∧ c.x.length = m ∧ c.y.length = m ∧ c.w.length = (if wk.wgt then m else 0) := by
  unfold ReadEl
  rcases readElPlan_safe (lw := lw) (ow := ow) (cfg := cfg) hw v he hT with ⟨ho, h⟩ | ⟨p, h, hm⟩
  · rw [h]; exact .inl ⟨ho, fun out h => h⟩
  · rw [h]
    right
    rcases exec_uniform lw wk.wgt p with hx | hx
    · left
      rintro out ⟨j, sched, hint, rfl⟩
      exact hx j sched hint
    · right
      refine ⟨p.m, hm, ?_⟩
      rintro out ⟨j, sched, hint, rfl⟩
      exact hx j sched hint

end Pigo
