import Verif.Lemmas.WeightedExec

/-!
# Weighted edge lists line by line
-/

namespace Pigo

variable {W : Type} {μ : Mapping} {e : Nat}

/-- The value of an unsigned weight. -/
abbrev uV (ww : Nat) (s : List Byte) : Nat := numAt ww (nextIntL s)

/-- What is left behind it. -/
abbrev uS (s : List Byte) : List Byte := afterNum (nextIntL s)

theorem uS_suffix (s : List Byte) : uS s <:+ s := (toDigitL_suffix _).trans (nextIntL_suffix _)

theorem nextIntL_over {u : List Byte} (rest : List Byte) (hu : nl ∉ u) (h : nextIntL u = []) : nextIntL (u ++ nl :: rest) = firstIntL rest := by
  unfold nextIntL firstIntL at *
  rw [dropWhile_append_nl _ isDigit_nl, toStop_line _ isDigit_nl _ _ (not_mem_dropWhile _ hu), if_pos h]

theorem nextLineL_line {u : List Byte} (rest : List Byte) (hu : nl ∉ u) : nextLineL (u ++ nl :: rest) = firstIntL rest := by
  unfold nextLineL; rw [eolL_line u rest hu, nextIntL_nl]

theorem afterNum_line {u : List Byte} (rest : List Byte) (h : AtNum u) (hu : u ≠ []) :
    afterNum (u ++ nl :: rest) = u.dropWhile isDigit ++ nl :: rest ∧ ∀ w, numAt w (u ++ nl :: rest) = decVal (u.takeWhile isDigit) % 2 ^ w := by
  have ht : AtNum (u ++ nl :: rest) := by
    intro c t hc
    cases u with
    | nil => exact absurd rfl hu
    | cons d v => injection hc with hc _; rw [← hc]; exact h d v rfl
  refine ⟨?_, fun w => ?_⟩
  · unfold afterNum; rw [ht.toDigit, dropWhile_append_nl _ isDigit_nl]
  · unfold numAt; rw [ht.toDigit, takeWhile_append_nl _ isDigit_nl]

theorem nextInt_of_ints {l : List Byte} (hn : nl ∉ l) {x : Nat} {t : List Nat} (h : Spec.ints l = x :: t) :
    nl ∉ firstIntL l ∧ firstIntL l ≠ [] ∧ x = decVal ((firstIntL l).takeWhile isDigit) ∧ nl ∉ (firstIntL l).dropWhile isDigit ∧
      Spec.ints ((firstIntL l).dropWhile isDigit) = t ∧ nextIntL (firstIntL l) = firstIntL ((firstIntL l).dropWhile isDigit) ∧
      (nextIntL (firstIntL l) = [] ↔ t = []) := by
  obtain ⟨h1, h2, h3⟩ := ints_cons l hn x t h
  have n0 := not_mem_firstInt hn
  have n1 : nl ∉ (firstIntL l).dropWhile isDigit := not_mem_dropWhile _ n0
  refine ⟨n0, h1, h2, n1, h3, rfl, ?_⟩
  show firstIntL ((firstIntL l).dropWhile isDigit) = [] ↔ _
  rw [firstIntL_nil_iff _ n1, h3]

/-- The first number of a line and the text after it. -/
theorem first_line {l : List Byte} (hn : nl ∉ l) (rest : List Byte) :
    firstIntL (l ++ nl :: rest) = if Spec.ints l = [] then firstIntL rest else firstIntL l ++ nl :: rest := by
  have h := toStop_line isDigit isDigit_nl l rest hn
  show toStop isDigit false _ = _
  rw [h]
  by_cases hh : Spec.ints l = []
  · rw [if_pos hh, if_pos ((firstIntL_nil_iff l hn).mpr hh)]
  · rw [if_neg hh, if_neg (fun h => hh ((firstIntL_nil_iff l hn).mp h))]

/-- Pass 1 on a line with two numbers at least. -/
theorem cStep {l : List Byte} (hn : nl ∉ l) (rest : List Byte) (h : 2 ≤ (Spec.ints l).length) :
    nextIntL (firstIntL l ++ nl :: rest) ≠ [] ∧ nextLineL (nextIntL (firstIntL l ++ nl :: rest)) = firstIntL rest := by
  match hi : Spec.ints l, h with
  | x :: y :: t, _ =>
    obtain ⟨n0, h1, h2, n1, h3, h4, h5⟩ := nextInt_of_ints hn hi
    have hne : nextIntL (firstIntL l) ≠ [] := fun hh => by cases h5.mp hh
    rw [nextIntL_line _ _ n0 hne]
    refine ⟨by simp, nextLineL_line rest ?_⟩
    rw [h4]; exact not_mem_firstInt n1

/-- Pass 2 on a line with three numbers at least. -/
theorem wStep {l : List Byte} (hn : nl ∉ l) (rest : List Byte) (h : 3 ≤ (Spec.ints l).length) :
    uS (preW (firstIntL l ++ nl :: rest)) ≠ [] ∧ nextLineL (uS (preW (firstIntL l ++ nl :: rest))) = firstIntL rest := by
  match hi : Spec.ints l, h with
  | x :: y :: z :: t, _ =>
    obtain ⟨n0, h1, h2, n1, h3, h4, h5⟩ := nextInt_of_ints hn hi
    obtain ⟨m0, k1, k2, m1, k3, k4, k5⟩ := nextInt_of_ints n1 h3
    obtain ⟨q0, j1, j2, q1, j3, j4, j5⟩ := nextInt_of_ints m1 k3
    have e1 : afterNum (firstIntL l ++ nl :: rest) = (firstIntL l).dropWhile isDigit ++ nl :: rest := (afterNum_line rest (atNum_firstInt _ _) h1).1
    have hd : ∀ s : List Byte, nextIntL (s.dropWhile isDigit) = firstIntL (s.dropWhile isDigit) := fun s => by unfold nextIntL; rw [dropWhile_idem]
    have e2 : nextIntL (afterNum (firstIntL l ++ nl :: rest)) = firstIntL ((firstIntL l).dropWhile isDigit) ++ nl :: rest := by
      rw [e1, nextIntL_line _ _ n1 (by rw [hd]; exact k1), hd]
    have e3 : preW (firstIntL l ++ nl :: rest) = (firstIntL ((firstIntL l).dropWhile isDigit)).dropWhile isDigit ++ nl :: rest := by
      unfold preW; rw [e2]; exact (afterNum_line rest (atNum_firstInt _ _) k1).1
    have e4 : nextIntL (preW (firstIntL l ++ nl :: rest)) = firstIntL ((firstIntL ((firstIntL l).dropWhile isDigit)).dropWhile isDigit) ++ nl :: rest := by
      rw [e3, nextIntL_line _ _ m1 (by rw [hd]; exact j1), hd]
    have e5 : uS (preW (firstIntL l ++ nl :: rest)) = (firstIntL ((firstIntL ((firstIntL l).dropWhile isDigit)).dropWhile isDigit)).dropWhile isDigit ++ nl :: rest := by
      unfold uS; rw [e4]; exact (afterNum_line rest (atNum_firstInt _ _) j1).1
    rw [e5]
    exact ⟨by simp, nextLineL_line rest q1⟩

/-- Pass 2 on a line with two numbers in front of a line with a number: that one is the weight. -/
theorem wStep2 {l l' : List Byte} (hn : nl ∉ l) (hn' : nl ∉ l') (rest : List Byte) {x y z : Nat} {t : List Nat} (h : Spec.ints l = [x, y])
    (h' : Spec.ints l' = z :: t) (B : List (List Byte)) (hB : NoNl B) (hB0 : ∀ l ∈ B, Spec.ints l = []) :
    let s := firstIntL l ++ nl :: (text B ++ (l' ++ nl :: rest))
    uS (preW s) ≠ [] ∧ nextLineL (uS (preW s)) = firstIntL rest ∧
      ∀ lw ww, numAt lw s = x % 2 ^ lw ∧ numAt lw (nextIntL (afterNum s)) = y % 2 ^ lw ∧ uV ww (preW s) = z % 2 ^ ww := by
  intro s
  obtain ⟨n0, h1, h2, n1, h3, h4, h5⟩ := nextInt_of_ints hn h
  obtain ⟨m0, k1, k2, m1, k3, k4, k5⟩ := nextInt_of_ints n1 h3
  obtain ⟨q0, j1, j2, q1, j3, j4, j5⟩ := nextInt_of_ints hn' h'
  have hd : ∀ s : List Byte, nextIntL (s.dropWhile isDigit) = firstIntL (s.dropWhile isDigit) := fun s => by unfold nextIntL; rw [dropWhile_idem]
  obtain ⟨e1, f1⟩ := afterNum_line (text B ++ (l' ++ nl :: rest)) (atNum_firstInt false l) h1
  obtain ⟨e2', f2⟩ := afterNum_line (text B ++ (l' ++ nl :: rest)) (atNum_firstInt false ((firstIntL l).dropWhile isDigit)) k1
  have e2 : nextIntL (afterNum s) = firstIntL ((firstIntL l).dropWhile isDigit) ++ nl :: (text B ++ (l' ++ nl :: rest)) := by
    show nextIntL (afterNum (firstIntL l ++ _)) = _
    rw [show afterNum (firstIntL l ++ nl :: (text B ++ (l' ++ nl :: rest))) = _ from e1, nextIntL_line _ _ n1 (by rw [hd]; exact k1), hd]
  have e3 : preW s = (firstIntL ((firstIntL l).dropWhile isDigit)).dropWhile isDigit ++ nl :: (text B ++ (l' ++ nl :: rest)) := by
    unfold preW; rw [e2]; exact e2'
  have e4 : nextIntL (preW s) = firstIntL l' ++ nl :: rest := by
    rw [e3, nextIntL_over _ m1 (by rw [hd, firstIntL_nil_iff _ m1]; exact k3), firstInt_blank hB hB0, first_line hn', if_neg (by rw [h']; simp)]
  obtain ⟨e5, f3⟩ := afterNum_line rest (atNum_firstInt false l') j1
  have e6 : uS (preW s) = (firstIntL l').dropWhile isDigit ++ nl :: rest := by
    unfold uS; rw [e4]; exact e5
  refine ⟨by rw [e6]; simp, by rw [e6]; exact nextLineL_line rest q1, fun lw ww => ⟨?_, ?_, ?_⟩⟩
  · rw [h2]; exact f1 lw
  · rw [e2, k2]; exact f2 lw
  · unfold uV; rw [e4, j2]; exact f3 ww

/-- The scan of pass 2 needs no more steps than the text is long. -/
theorem wScan_stable {lw : Nat} {wv : List Byte → W} {ws : List Byte → List Byte} (hws : ∀ s, ws s <:+ s) : ∀ (n : Nat) (s : List Byte), AtNum s → s.length ≤ n →
    ∀ m, s.length ≤ m → wScan lw wv ws n s = wScan lw wv ws m s
  | 0, s, _, hn, m, hm => by
    have : s = [] := List.length_eq_zero_iff.mp (by omega)
    subst this
    cases m <;> simp [wScan]
  | n+1, s, h, hn, m, hm => by
    by_cases hs : s = []
    · subst hs; cases m <;> simp [wScan]
    · have := List.length_pos_iff.mpr hs
      obtain ⟨m, rfl⟩ : ∃ q, m = q + 1 := ⟨m - 1, by omega⟩
      rw [wScan, wScan, if_neg hs, if_neg hs]
      split
      · rfl
      · have h1 := nextInt_short h hs
        have h2 := (nextLineL_suffix (ws (preW s))).length_le
        have h3 := ((hws (preW s)).trans (preW_suffix h)).length_le
        rw [wScan_stable hws n _ (atNum_nextLine _) (by omega) m (by omega)]

theorem cScan_step {s : List Byte} (h : AtNum s) (hs : s ≠ []) (h2 : nextIntL s ≠ []) {n k : Nat} (hn : s.length ≤ n) (hk : (nextLineL (nextIntL s)).length ≤ k) :
    cScan n s = cScan k (nextLineL (nextIntL s)) + 1 := by
  have := List.length_pos_iff.mpr hs
  obtain ⟨n, rfl⟩ : ∃ q, n = q + 1 := ⟨n - 1, by omega⟩
  rw [cScan, if_neg hs, if_neg h2]
  have h1 := nextInt_short h hs
  have h3 := (nextLineL_suffix (nextIntL s)).length_le
  rw [cScan_stable n _ (atNum_nextLine _) (by omega) k hk]

theorem wScan_step {lw : Nat} {wv : List Byte → W} {ws : List Byte → List Byte} (hws : ∀ s, ws s <:+ s) {s : List Byte} (h : AtNum s) (hs : s ≠ [])
    (h2 : ws (preW s) ≠ []) {n k : Nat} (hn : s.length ≤ n) (hk : (nextLineL (ws (preW s))).length ≤ k) :
    wScan lw wv ws n s = ((numAt lw s, numAt lw (nextIntL (afterNum s)), wv (preW s)) :: (wScan lw wv ws k (nextLineL (ws (preW s)))).1,
        (wScan lw wv ws k (nextLineL (ws (preW s)))).2) := by
  have := List.length_pos_iff.mpr hs
  obtain ⟨n, rfl⟩ : ∃ q, n = q + 1 := ⟨n - 1, by omega⟩
  rw [wScan, if_neg hs, if_neg h2]
  have h1 := nextInt_short h hs
  have h3 := (nextLineL_suffix (ws (preW s))).length_le
  have h4 := ((hws (preW s)).trans (preW_suffix h)).length_le
  rw [wScan_stable hws n _ (atNum_nextLine _) (by omega) k hk]

theorem atNum_append {u rest : List Byte} (h : AtNum u) (hu : u ≠ []) : AtNum (u ++ rest) := by
  intro c t hc
  cases u with
  | nil => exact absurd rfl hu
  | cons d v => injection hc with hc _; rw [← hc]; exact h d v rfl

/-- Lines with three numbers or none: as many entries in both passes. -/
theorem scan_lines {lw ww : Nat} {σ : List Byte} : ∀ (L : List (List Byte)), NoNl L → (∀ l ∈ L, Spec.ints l = [] ∨ 3 ≤ (Spec.ints l).length) → ∀ (n k : Nat),
    (firstIntL (text L ++ σ)).length ≤ n → (firstIntL σ).length ≤ k → ∃ q, cScan n (firstIntL (text L ++ σ)) = q + cScan k (firstIntL σ) ∧
      (wScan lw (uV ww) uS n (firstIntL (text L ++ σ))).1.length = q + (wScan lw (uV ww) uS k (firstIntL σ)).1.length ∧
      (wScan lw (uV ww) uS n (firstIntL (text L ++ σ))).2 = (wScan lw (uV ww) uS k (firstIntL σ)).2
  | [], _, _, n, k, hn, hk => by
    rw [text_nil, List.nil_append] at hn ⊢
    rw [cScan_stable n _ (atNum_firstInt _ _) hn k hk, wScan_stable uS_suffix n _ (atNum_firstInt _ _) hn k hk]
    exact ⟨0, (Nat.zero_add _).symm, (Nat.zero_add _).symm, rfl⟩
  | l :: L, hnl, h3, n, k, hn, hk => by
    have hl := hnl l (by simp)
    have hnl' : NoNl L := fun l' h' => hnl l' (List.mem_cons_of_mem _ h')
    have h3' := fun l' h' => h3 l' (List.mem_cons_of_mem _ h')
    rw [text_cons, List.append_assoc, List.cons_append, first_line hl] at hn ⊢
    rcases h3 l (by simp) with h | h
    · rw [if_pos h] at hn ⊢
      exact scan_lines L hnl' h3' n k hn hk
    · have hne : Spec.ints l ≠ [] := by intro hh; rw [hh] at h; simp at h
      rw [if_neg hne] at hn ⊢
      have hf : firstIntL l ≠ [] := fun hh => hne ((firstIntL_nil_iff l hl).mp hh)
      have hat : AtNum (firstIntL l ++ nl :: (text L ++ σ)) := atNum_append (atNum_firstInt _ _) hf
      obtain ⟨c1, c2⟩ := cStep hl (text L ++ σ) (by omega)
      obtain ⟨w1, w2⟩ := wStep hl (text L ++ σ) h
      rw [cScan_step hat (by simp) c1 hn (k := (firstIntL (text L ++ σ)).length) (by rw [c2]; exact Nat.le_refl _),
        wScan_step uS_suffix hat (by simp) w1 hn (k := (firstIntL (text L ++ σ)).length) (by rw [w2]; exact Nat.le_refl _), c2, w2]
      obtain ⟨q, i1, i2, i3⟩ := scan_lines (lw := lw) (ww := ww) L hnl' h3' _ k (Nat.le_refl _) hk
      refine ⟨q + 1, ?_, ?_, i3⟩
      · omega
      · simp only [List.length_cons]; omega

/-- A lone number at the end of the text: nothing for pass 1, the weight of an entry for pass 2. -/
theorem lone_scan {lw ww : Nat} {σ : List Byte} (h1 : firstIntL σ ≠ []) (h2 : nextIntL (firstIntL σ) = []) {k : Nat} (hk : (firstIntL σ).length ≤ k) :
    cScan k (firstIntL σ) = 0 ∧ (wScan lw (uV ww) uS k (firstIntL σ)).1 = [] ∧ (wScan lw (uV ww) uS k (firstIntL σ)).2 = some 0 := by
  have := List.length_pos_iff.mpr h1
  obtain ⟨k, rfl⟩ : ∃ q, k = q + 1 := ⟨k - 1, by omega⟩
  have hp : preW (firstIntL σ) = [] := by
    have := preW_suffix (s := firstIntL σ) (atNum_firstInt _ _)
    rw [h2] at this; exact List.suffix_nil.mp this
  have hu : uS (preW (firstIntL σ)) = [] := by
    have := uS_suffix (preW (firstIntL σ))
    rw [hp] at this ⊢; exact List.suffix_nil.mp this
  refine ⟨by rw [cScan, if_neg h1, if_pos h2], by rw [wScan, if_neg h1, if_pos hu], ?_⟩
  rw [wScan, if_neg h1, if_pos hu, hp]
  show some (numAt ww []) = some 0
  simp [numAt, toDigitL, decVal]

end Pigo
