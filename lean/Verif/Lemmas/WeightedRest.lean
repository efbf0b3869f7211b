import Verif.Lemmas.WeightedStored
import Verif.Lemmas.SpecialLoad

/-!
# The complete entries of a weighted edge list that ends within a line
-/

namespace Pigo

/-- An entry as it is stored. -/
def redU (lw ww : Nat) (e : Nat × Nat × Nat) : Nat × Nat × Nat := (e.1 % 2 ^ lw, e.2.1 % 2 ^ lw, e.2.2 % 2 ^ ww)

/-- The values pass 2 reads on a line with three numbers at least. -/
theorem wStepV {l : List Byte} (hn : nl ∉ l) (rest : List Byte) {x y z : Nat} {t : List Nat} (h : Spec.ints l = x :: y :: z :: t) (lw ww : Nat) :
    numAt lw (firstIntL l ++ nl :: rest) = x % 2 ^ lw ∧ numAt lw (nextIntL (afterNum (firstIntL l ++ nl :: rest))) = y % 2 ^ lw ∧
      uV ww (preW (firstIntL l ++ nl :: rest)) = z % 2 ^ ww := by
  obtain ⟨n0, h1, h2, n1, h3, h4, h5⟩ := nextInt_of_ints hn h
  obtain ⟨m0, k1, k2, m1, k3, k4, k5⟩ := nextInt_of_ints n1 h3
  obtain ⟨q0, j1, j2, q1, j3, j4, j5⟩ := nextInt_of_ints m1 k3
  obtain ⟨e1, f1⟩ := afterNum_line rest (atNum_firstInt false l) h1
  obtain ⟨e2', f2⟩ := afterNum_line rest (atNum_firstInt false ((firstIntL l).dropWhile isDigit)) k1
  obtain ⟨e3', f3⟩ := afterNum_line rest (atNum_firstInt false ((firstIntL ((firstIntL l).dropWhile isDigit)).dropWhile isDigit)) j1
  have hd : ∀ s : List Byte, nextIntL (s.dropWhile isDigit) = firstIntL (s.dropWhile isDigit) := fun s => by unfold nextIntL; rw [dropWhile_idem]
  have e2 : nextIntL (afterNum (firstIntL l ++ nl :: rest)) = firstIntL ((firstIntL l).dropWhile isDigit) ++ nl :: rest := by
    rw [show afterNum (firstIntL l ++ nl :: rest) = _ from e1, nextIntL_line _ _ n1 (by rw [hd]; exact k1), hd]
  have e3 : preW (firstIntL l ++ nl :: rest) = (firstIntL ((firstIntL l).dropWhile isDigit)).dropWhile isDigit ++ nl :: rest := by
    unfold preW; rw [e2]; exact e2'
  have e4 : nextIntL (preW (firstIntL l ++ nl :: rest)) = firstIntL ((firstIntL ((firstIntL l).dropWhile isDigit)).dropWhile isDigit) ++ nl :: rest := by
    rw [e3, nextIntL_line _ _ m1 (by rw [hd]; exact j1), hd]
  refine ⟨by rw [h2]; exact f1 lw, by rw [e2, k2]; exact f2 lw, ?_⟩
  unfold uV; rw [e4, j2]; exact f3 ww

/-- Lines with three numbers or none: the entries of pass 2. -/
theorem scan_vals {lw ww : Nat} {σ : List Byte} : ∀ (L : List (List Byte)), NoNl L → (∀ l ∈ L, Spec.ints l = [] ∨ 3 ≤ (Spec.ints l).length) → ∀ (n k : Nat),
    (firstIntL (text L ++ σ)).length ≤ n → (firstIntL σ).length ≤ k →
      (wScan lw (uV ww) uS n (firstIntL (text L ++ σ))).1 = (L.filterMap Spec.entryU).map (redU lw ww) ++ (wScan lw (uV ww) uS k (firstIntL σ)).1
  | [], _, _, n, k, hn, hk => by
    rw [text_nil, List.nil_append] at hn ⊢
    rw [wScan_stable uS_suffix n _ (atNum_firstInt _ _) hn k hk]; rfl
  | l :: L, hnl, h3, n, k, hn, hk => by
    have hl := hnl l (by simp)
    have hnl' : NoNl L := fun l' h' => hnl l' (List.mem_cons_of_mem _ h')
    have h3' := fun l' h' => h3 l' (List.mem_cons_of_mem _ h')
    rw [text_cons, List.append_assoc, List.cons_append, first_line hl] at hn ⊢
    rcases h3 l (by simp) with h | h
    · rw [if_pos h] at hn ⊢
      have he : Spec.entryU l = none := by unfold Spec.entryU; rw [h]
      rw [List.filterMap_cons, he]
      exact scan_vals L hnl' h3' n k hn hk
    · have hne : Spec.ints l ≠ [] := by intro hh; rw [hh] at h; simp at h
      rw [if_neg hne] at hn ⊢
      have hf : firstIntL l ≠ [] := fun hh => hne ((firstIntL_nil_iff l hl).mp hh)
      have hat : AtNum (firstIntL l ++ nl :: (text L ++ σ)) := atNum_append (atNum_firstInt _ _) hf
      obtain ⟨w1, w2⟩ := wStep hl (text L ++ σ) h
      match hi : Spec.ints l, h with
      | x :: y :: z :: t, _ =>
        obtain ⟨v1, v2, v3⟩ := wStepV hl (text L ++ σ) hi lw ww
        have he : Spec.entryU l = some (x, y, z) := by unfold Spec.entryU; rw [hi]
        rw [wScan_step uS_suffix hat (by simp) w1 hn (k := (firstIntL (text L ++ σ)).length) (Nat.le_of_eq (by rw [w2])), w2, v1, v2, v3,
          List.filterMap_cons, he, List.map_cons, List.cons_append]
        show (x % 2 ^ lw, y % 2 ^ lw, z % 2 ^ ww) :: (wScan lw (uV ww) uS _ _).1 = _
        rw [scan_vals L hnl' h3' _ k (Nat.le_refl _) hk]; rfl

section
variable {ls : List (List Byte)} {τ : List Byte}

/-- The part of a thread: its lines, or the lines up to the end of the text, or nothing. -/
theorem region_at (hls : NoNl ls) (hτ : nl ∉ τ) (T tid : Nat) :
    (lineOf (text ls ++ τ) T (tid+1) ≤ ls.length ∧ ∃ g, firstIntL g = [] ∧ regL (text ls ++ τ) T tid =
      firstIntL (text ((ls.drop (lineOf (text ls ++ τ) T tid)).take (lineOf (text ls ++ τ) T (tid+1) - lineOf (text ls ++ τ) T tid)) ++ g)) ∨
    (lineOf (text ls ++ τ) T tid ≤ ls.length ∧ ls.length < lineOf (text ls ++ τ) T (tid+1) ∧
      regL (text ls ++ τ) T tid = firstIntL (text (ls.drop (lineOf (text ls ++ τ) T tid)) ++ τ)) ∨
    (ls.length < lineOf (text ls ++ τ) T tid ∧ regL (text ls ++ τ) T tid = []) := by
  have hJ := lineOf_mono (text ls ++ τ) T tid
  have h0 := startL_tail hls hτ T tid
  have h1 := startL_tail hls hτ T (tid+1)
  generalize lineOf (text ls ++ τ) T tid = J at *
  generalize lineOf (text ls ++ τ) T (tid+1) = J' at *
  by_cases c1 : J' ≤ ls.length
  · left
    have hdrop : ls.drop J = (ls.drop J).take (J' - J) ++ ls.drop J' := by
      conv => lhs; rw [← List.take_append_drop (J' - J) (ls.drop J)]
      rw [List.drop_drop]; congr 2; omega
    refine ⟨c1, garb (text (ls.drop J') ++ τ), (garb_spec _).2, ?_⟩
    apply regL_eq
    rw [h0, h1, startAt, startAt, if_pos c1, if_pos (by omega)]
    have := region_garb ((ls.drop J).take (J' - J)) (text (ls.drop J') ++ τ)
      (fun l hl => hls l (List.mem_of_mem_drop (List.mem_of_mem_take hl)))
    rw [← this, ← List.append_assoc, ← text_append, ← hdrop]
  · right
    rw [startAt, if_neg c1] at h1
    by_cases c2 : J ≤ ls.length
    · left
      refine ⟨c2, by omega, ?_⟩
      apply regL_eq
      rw [h0, h1, startAt, if_pos c2, List.append_nil]
    · right
      refine ⟨by omega, ?_⟩
      apply regL_eq
      rw [h0, h1, startAt, if_neg c2]; rfl

variable {lw ww : Nat} (hls : NoNl ls) (hτ : nl ∉ τ) (h3 : ∀ l ∈ ls, Spec.ints l = [] ∨ 3 ≤ (Spec.ints l).length) (hcut : CutTail τ)
include hls hτ h3 hcut

/-- The entries of a thread of a cut file. -/
theorem cut_entries (T tid : Nat) : (wPart lw (uV ww) uS (text ls ++ τ) T tid).1 =
    (((ls.drop (lineOf (text ls ++ τ) T tid)).take (lineOf (text ls ++ τ) T (tid+1) - lineOf (text ls ++ τ) T tid)).filterMap Spec.entryU).map (redU lw ww) := by
  have hmem : ∀ {L : List (List Byte)}, (∀ l ∈ L, l ∈ ls) → NoNl L ∧ ∀ l ∈ L, Spec.ints l = [] ∨ 3 ≤ (Spec.ints l).length :=
    fun h => ⟨fun l hl => hls l (h l hl), fun l hl => h3 l (h l hl)⟩
  unfold wPart
  rcases region_at hls hτ T tid with ⟨_, g, hg, hreg⟩ | ⟨c1, c2, hreg⟩ | ⟨c, hreg⟩
  · obtain ⟨a, b⟩ := hmem (L := (ls.drop (lineOf (text ls ++ τ) T tid)).take (lineOf (text ls ++ τ) T (tid+1) - lineOf (text ls ++ τ) T tid))
      (fun l hl => List.mem_of_mem_drop (List.mem_of_mem_take hl))
    rw [hreg, scan_vals _ a b _ 0 (Nat.le_refl _) (by rw [hg]; exact Nat.le_refl _), hg]
    simp [wScan]
  · obtain ⟨a, b⟩ := hmem (L := ls.drop (lineOf (text ls ++ τ) T tid)) (fun l hl => List.mem_of_mem_drop hl)
    obtain ⟨j1, j2, j3⟩ := cut_scan (lw := lw) (ww := ww) hτ hcut (Nat.le_refl _)
    rw [hreg, scan_vals _ a b _ _ (Nat.le_refl _) (Nat.le_refl _), j2, List.append_nil, List.take_of_length_le]
    rw [List.length_drop]; omega
  · rw [hreg, List.drop_of_length_le (by omega)]; simp [wScan]

/-- The entries of all threads up to one. -/
theorem cut_flat (T : Nat) : ∀ t, (List.range t).flatMap (fun t => (wPart lw (uV ww) uS (text ls ++ τ) T t).1) =
    ((ls.take (lineOf (text ls ++ τ) T t)).filterMap Spec.entryU).map (redU lw ww)
  | 0 => by simp [lineOf]
  | t+1 => by
    rw [List.range_succ, List.flatMap_append, cut_flat T t]
    simp only [List.flatMap_cons, List.flatMap_nil, List.append_nil]
    rw [cut_entries hls hτ h3 hcut, ← List.map_append, ← List.filterMap_append]
    have h := lineOf_mono (text ls ++ τ) T t
    conv => rhs; rw [show lineOf (text ls ++ τ) T (t+1) = lineOf (text ls ++ τ) T t + (lineOf (text ls ++ τ) T (t+1) - lineOf (text ls ++ τ) T t) by omega]
    rw [List.take_add]

theorem cut_all {T : Nat} (hT : 0 < T) : (List.range T).flatMap (fun t => (wPart lw (uV ww) uS (text ls ++ τ) T t).1) =
    (ls.filterMap Spec.entryU).map (redU lw ww) := by
  rw [cut_flat hls hτ h3 hcut, List.take_of_length_le]
  unfold lineOf
  rw [if_neg (by omega), cut_last _ _ hT, List.take_length, count_text ls τ hls]
  omega

/-- The weight of the entry that was cut is stored to that entry. -/
theorem cut_torn (T : Nat) : TornIn lw (uV ww) uS (text ls ++ τ) T := by
  intro tid _
  have hmem : ∀ {L : List (List Byte)}, (∀ l ∈ L, l ∈ ls) → NoNl L ∧ ∀ l ∈ L, Spec.ints l = [] ∨ 3 ≤ (Spec.ints l).length :=
    fun h => ⟨fun l hl => hls l (h l hl), fun l hl => h3 l (h l hl)⟩
  rcases region_at hls hτ T tid with ⟨_, g, hg, hreg⟩ | ⟨c1, c2, hreg⟩ | ⟨c, hreg⟩
  · obtain ⟨a, b⟩ := hmem (L := (ls.drop (lineOf (text ls ++ τ) T tid)).take (lineOf (text ls ++ τ) T (tid+1) - lineOf (text ls ++ τ) T tid))
      (fun l hl => List.mem_of_mem_drop (List.mem_of_mem_take hl))
    obtain ⟨q, i1, i2, i3⟩ := scan_lines (lw := lw) (ww := ww) (σ := g) _ a b _ 0 (Nat.le_refl _) (by rw [hg]; exact Nat.le_refl _)
    rw [hg, ← hreg] at i3
    exact .inl i3
  · obtain ⟨a, b⟩ := hmem (L := ls.drop (lineOf (text ls ++ τ) T tid)) (fun l hl => List.mem_of_mem_drop hl)
    obtain ⟨q, i1, i2, i3⟩ := scan_lines (lw := lw) (ww := ww) (σ := τ) _ a b _ _ (Nat.le_refl _) (Nat.le_refl _)
    obtain ⟨j1, j2, j3⟩ := cut_scan (lw := lw) (ww := ww) hτ hcut (Nat.le_refl _)
    rw [← hreg] at i1 i2
    rw [j1] at i1
    rw [j2] at i2
    have i1 : cPart (text ls ++ τ) T tid = q + 1 := i1
    have i2 : (wPart lw (uV ww) uS (text ls ++ τ) T tid).1.length = q := i2
    right; omega
  · left
    unfold wPart; rw [hreg]; rfl

theorem edge_entry {L : List (List Byte)} (h : ∀ l ∈ L, l ∈ ls) : (L.filterMap Spec.edge).length = (L.filterMap Spec.entryU).length := by
  induction L with
  | nil => rfl
  | cons l L ih =>
    have ih := ih (fun l' h' => h l' (List.mem_cons_of_mem _ h'))
    rcases h3 l (h l (by simp)) with hi | hi
    · have e1 : Spec.edge l = none := by unfold Spec.edge; rw [hi]
      have e2 : Spec.entryU l = none := by unfold Spec.entryU; rw [hi]
      simp only [List.filterMap_cons, e1, e2, ih]
    · match hj : Spec.ints l, hi with
      | x :: y :: z :: t, _ =>
        have e1 : Spec.edge l = some (x, y) := by unfold Spec.edge; rw [hj]
        have e2 : Spec.entryU l = some (x, y, z) := by unfold Spec.entryU; rw [hj]
        simp only [List.filterMap_cons, e1, e2, List.length_cons, ih]

/-- Where an entry of a complete line is stored. -/
theorem cut_pos {T : Nat} (hT : 0 < T) {i : Nat} {e : Nat × Nat × Nat} (hi : (ls.filterMap Spec.entryU)[i]? = some e) :
    ∃ t < T, ∃ j, i = cStart (text ls ++ τ) T t + j ∧ (wPart lw (uV ww) uS (text ls ++ τ) T t).1[j]? = some (redU lw ww e) := by
  have hall := cut_all (lw := lw) (ww := ww) hls hτ h3 hcut hT
  have hi' : ((List.range T).flatMap (fun t => (wPart lw (uV ww) uS (text ls ++ τ) T t).1))[i]? = some (redU lw ww e) := by
    rw [hall, List.getElem?_map, hi]; rfl
  obtain ⟨t, a, j, g1, g2, g3, g4⟩ := flatMap_pos _ _ i (List.getElem?_eq_some_iff.mp hi').1
  have ht : t < T := by have := (List.getElem?_eq_some_iff.mp g1).1; simpa using this
  rw [List.getElem?_range ht] at g1
  simp only [Option.some.injEq] at g1
  subst g1
  refine ⟨t, ht, j, ?_, by rw [← g4]; exact hi'⟩
  rw [g3, List.take_range, show min t T = t by omega, cut_flat hls hτ h3 hcut, List.length_map]
  have h2 : ∀ l ∈ ls ++ [τ], Spec.ints l = [] ∨ 2 ≤ (Spec.ints l).length := by
    intro l hl
    rcases List.mem_append.mp hl with hl | hl
    · rcases h3 l hl with h | h
      · exact .inl h
      · exact .inr (by omega)
    · simp only [List.mem_singleton] at hl; subst hl; exact .inr hcut.two
  have hJ : lineOf (text ls ++ τ) T t ≤ ls.length := by
    apply Nat.le_of_not_lt
    intro hlt
    rw [cut_entries hls hτ h3 hcut, List.drop_of_length_le (by omega)] at g2
    simp at g2
  rw [cStart_take hls hτ h2, List.take_append_of_le_length hJ,
    edge_entry hls hτ h3 hcut (fun l hl => List.mem_of_mem_take hl)]

end

/-- A file with a number in one of its lines has a first number. -/
theorem firstInt_file {file : List Byte} (h : ∃ l ∈ Spec.lines file, Spec.ints l ≠ []) : firstIntL file ≠ [] := by
  intro h0
  obtain ⟨l, hl, hi⟩ := h
  have hnl := lines_noNl file
  have hall := text_lines file
  have hsplit := List.dropLast_concat_getLast (Spec.lines_ne_nil file)
  have hls : NoNl (Spec.lines file).dropLast := fun l hl => hnl l (List.dropLast_subset _ hl)
  rcases split_blank (Spec.lines file).dropLast with hb | ⟨B0, l0, L0, hd0, hb0, hl0⟩
  · rw [hall, firstInt_blank hls hb, firstIntL_nil_iff _ (hnl _ (List.getLast_mem _))] at h0
    rw [← hsplit] at hl
    rcases List.mem_append.mp hl with hm' | hm'
    · exact hi (hb l hm')
    · simp only [List.mem_singleton] at hm'; rw [hm'] at hi; exact hi h0
  · rw [hall, hd0, text_append, List.append_assoc, firstInt_blank (fun l hl => hls l (by rw [hd0]; simp [hl])) hb0, text_cons, List.append_assoc,
      List.cons_append, first_line (hls l0 (by rw [hd0]; simp)), if_neg hl0] at h0
    simp at h0

end Pigo
