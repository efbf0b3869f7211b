import Verif.Lemmas.WeightedTwo

/-!
# Weighted edge lists that end within a line
-/

namespace Pigo

variable {W : Type} {μ : Mapping} {e : Nat}

theorem nextLine_tail {u : List Byte} (h : nl ∉ u) : nextLineL u = [] := by
  have : eolL u = [] := by
    unfold eolL
    apply dropWhile_nil
    intro x hx
    simp only [bne_iff_ne, ne_eq]
    rintro rfl; exact h hx
  unfold nextLineL; rw [this]; rfl

/-- Pass 1 over lines with two numbers at least or none, and the text after the last newline. -/
theorem cScan_tail {τ : List Byte} (hτ : nl ∉ τ) (hτ2 : Spec.ints τ = [] ∨ 2 ≤ (Spec.ints τ).length) : ∀ (L : List (List Byte)), NoNl L →
    (∀ l ∈ L, Spec.ints l = [] ∨ 2 ≤ (Spec.ints l).length) → ∀ n, (firstIntL (text L ++ τ)).length ≤ n →
    cScan n (firstIntL (text L ++ τ)) = ((L ++ [τ]).filterMap Spec.edge).length
  | [], _, _, n, hn => by
    rw [text_nil, List.nil_append] at hn ⊢
    rcases hτ2 with h | h
    · rw [(firstIntL_nil_iff τ hτ).mpr h]
      have he : Spec.edge τ = none := by unfold Spec.edge; rw [h]
      simp only [List.nil_append, List.filterMap_cons, he, List.filterMap_nil, List.length_nil]
      cases n <;> simp [cScan]
    · have hne : Spec.ints τ ≠ [] := by intro hh; rw [hh] at h; simp at h
      have hf : firstIntL τ ≠ [] := fun hh => hne ((firstIntL_nil_iff τ hτ).mp hh)
      match hi : Spec.ints τ, h with
      | x :: y :: t, _ =>
        obtain ⟨n0, h1, h2, n1, h3, h4, h5⟩ := nextInt_of_ints hτ hi
        have hne2 : nextIntL (firstIntL τ) ≠ [] := fun hh => by cases h5.mp hh
        have hend : nextLineL (nextIntL (firstIntL τ)) = [] := nextLine_tail (by rw [h4]; exact not_mem_firstInt n1)
        rw [cScan_step (atNum_firstInt _ _) hf hne2 hn (k := 0) (by rw [hend]; exact Nat.le_refl _)]
        have he : Spec.edge τ = some (x, y) := by unfold Spec.edge; rw [hi]
        simp [cScan, he]
  | l :: L, hnl, h2, n, hn => by
    have hl := hnl l (by simp)
    have hnl' : NoNl L := fun l' h' => hnl l' (List.mem_cons_of_mem _ h')
    have h2' := fun l' h' => h2 l' (List.mem_cons_of_mem _ h')
    rw [text_cons, List.append_assoc, List.cons_append, first_line hl] at hn ⊢
    rw [List.cons_append]
    rcases h2 l (by simp) with h | h
    · rw [if_pos h] at hn ⊢
      have he : Spec.edge l = none := by unfold Spec.edge; rw [h]
      rw [List.filterMap_cons, he]
      exact cScan_tail hτ hτ2 L hnl' h2' n hn
    · have hne : Spec.ints l ≠ [] := by intro hh; rw [hh] at h; simp at h
      rw [if_neg hne] at hn ⊢
      have hf : firstIntL l ≠ [] := fun hh => hne ((firstIntL_nil_iff l hl).mp hh)
      have hat : AtNum (firstIntL l ++ nl :: (text L ++ τ)) := atNum_append (atNum_firstInt _ _) hf
      obtain ⟨c1, c2⟩ := cStep hl (text L ++ τ) h
      rw [cScan_step hat (by simp) c1 hn (k := (firstIntL (text L ++ τ)).length) (by rw [c2]; exact Nat.le_refl _), c2,
        cScan_tail hτ hτ2 L hnl' h2' _ (Nat.le_refl _)]
      have he : ∃ en, Spec.edge l = some en := by
        unfold Spec.edge
        match hi : Spec.ints l, h with
        | x :: y :: t, _ => exact ⟨(x, y), rfl⟩
      obtain ⟨en, he⟩ := he
      rw [List.filterMap_cons, he]; rfl

section
variable {ls : List (List Byte)} {τ : List Byte}

/-- How many entries pass 1 of a thread counts, by the lines. -/
theorem cPart_lines (hls : NoNl ls) (hτ : nl ∉ τ) (h2 : ∀ l ∈ ls ++ [τ], Spec.ints l = [] ∨ 2 ≤ (Spec.ints l).length) (T tid : Nat) :
    cPart (text ls ++ τ) T tid = ((segLines (text ls ++ τ) (ls ++ [τ]) T tid).filterMap Spec.edge).length := by
  unfold cPart
  have hmem : ∀ {L : List (List Byte)}, (∀ l ∈ L, l ∈ ls) → NoNl L ∧ ∀ l ∈ L, Spec.ints l = [] ∨ 2 ≤ (Spec.ints l).length :=
    fun h => ⟨fun l hl => hls l (h l hl), fun l hl => h2 l (by simp [h l hl])⟩
  rcases region_tail hls hτ T tid with ⟨g, hg, hin, hreg⟩ | ⟨L, hseg, hin, hreg, _⟩
  · obtain ⟨a, b⟩ := hmem hin
    rw [hreg, cScan_two hg _ a b _ (Nat.le_refl _)]
  · obtain ⟨a, b⟩ := hmem hin
    rw [hreg, hseg, cScan_tail hτ (h2 τ (by simp)) L a b _ (Nat.le_refl _)]

theorem sum_lengths {α : Type} (f : Nat → List α) : ∀ T, ((List.range T).map (fun t => (f t).length)).sum = ((List.range T).map f).flatten.length
  | 0 => rfl
  | T+1 => by
    simp only [List.range_succ, List.map_append, List.sum_append, List.flatten_append, List.length_append, sum_lengths f T]
    simp

/-- The number of entries of a file whose lines have two numbers at least or none. -/
theorem cStart_lines (hls : NoNl ls) (hτ : nl ∉ τ) (h2 : ∀ l ∈ ls ++ [τ], Spec.ints l = [] ∨ 2 ≤ (Spec.ints l).length) {T : Nat} (hT : 0 < T) :
    cStart (text ls ++ τ) T T = ((ls ++ [τ]).filterMap Spec.edge).length := by
  unfold cStart
  rw [show cPart (text ls ++ τ) T = fun t => ((segLines (text ls ++ τ) (ls ++ [τ]) T t).filterMap Spec.edge).length from
    funext (fun t => cPart_lines hls hτ h2 T t)]
  rw [sum_lengths (fun t => (segLines (text ls ++ τ) (ls ++ [τ]) T t).filterMap Spec.edge)]
  congr 1
  conv => rhs; rw [← seg_all_tail hls T hT]
  rw [List.filterMap_flatten, List.map_map]; rfl

end

/-- The text after the last newline has an entry whose weight is cut off or cannot be told from a cut one. -/
structure CutTail (τ : List Byte) : Prop where
  two : 2 ≤ (Spec.ints τ).length
  torn : uS (preW (firstIntL τ)) = []

theorem cut_scan {lw ww : Nat} {τ : List Byte} (hτ : nl ∉ τ) (h : CutTail τ) {k : Nat} (hk : (firstIntL τ).length ≤ k) :
    cScan k (firstIntL τ) = 1 ∧ (wScan lw (uV ww) uS k (firstIntL τ)).1 = [] ∧ (wScan lw (uV ww) uS k (firstIntL τ)).2 ≠ none := by
  have hne : Spec.ints τ ≠ [] := by intro hh; have := h.two; rw [hh] at this; simp at this
  have hf : firstIntL τ ≠ [] := fun hh => hne ((firstIntL_nil_iff τ hτ).mp hh)
  have h1 := cScan_tail hτ (.inr h.two) [] (fun l h => by cases h) (fun l h => by cases h) k (by simpa using hk)
  rw [text_nil, List.nil_append] at h1
  have hpos := List.length_pos_iff.mpr hf
  obtain ⟨k, rfl⟩ : ∃ q, k = q + 1 := ⟨k - 1, by omega⟩
  refine ⟨?_, by rw [wScan, if_neg hf, if_pos h.torn], by rw [wScan, if_neg hf, if_pos h.torn]; simp⟩
  rw [h1]
  have hl2 := h.two
  match hi : Spec.ints τ, hl2 with
  | x :: y :: t, _ =>
    have he : Spec.edge τ = some (x, y) := by unfold Spec.edge; rw [hi]
    simp [he]

theorem cutTail_two {τ : List Byte} (hτ : nl ∉ τ) (h : (Spec.ints τ).length = 2) : CutTail τ := by
  refine ⟨by omega, ?_⟩
  match hi : Spec.ints τ, h with
  | [x, y], _ =>
    obtain ⟨n0, h1, h2, n1, h3, h4, h5⟩ := nextInt_of_ints hτ hi
    obtain ⟨m0, k1, k2, m1, k3, k4, k5⟩ := nextInt_of_ints n1 h3
    have hd : ∀ s : List Byte, nextIntL (s.dropWhile isDigit) = firstIntL (s.dropWhile isDigit) := fun s => by unfold nextIntL; rw [dropWhile_idem]
    have e3 : preW (firstIntL τ) = (firstIntL ((firstIntL τ).dropWhile isDigit)).dropWhile isDigit := by
      unfold preW
      rw [nextInt_afterNum (atNum_firstInt _ _), h4]
      unfold afterNum
      rw [AtNum.toDigit (atNum_firstInt _ _)]
    unfold uS
    rw [e3, hd, (firstIntL_nil_iff _ m1).mpr k3]; rfl

theorem cutTail_three {τ : List Byte} (hτ : nl ∉ τ) (h : (Spec.ints τ).length = 3) (hcom : ∀ b ∈ τ, isCom b = false) (hend : EndsDigit τ) : CutTail τ := by
  refine ⟨by omega, ?_⟩
  match hi : Spec.ints τ, h with
  | [x, y, z], _ =>
    obtain ⟨n0, h1, h2, n1, h3, h4, h5⟩ := nextInt_of_ints hτ hi
    obtain ⟨m0, k1, k2, m1, k3, k4, k5⟩ := nextInt_of_ints n1 h3
    obtain ⟨q0, j1, j2, q1, j3, j4, j5⟩ := nextInt_of_ints m1 k3
    have hd : ∀ s : List Byte, nextIntL (s.dropWhile isDigit) = firstIntL (s.dropWhile isDigit) := fun s => by unfold nextIntL; rw [dropWhile_idem]
    have e3 : preW (firstIntL τ) = (firstIntL ((firstIntL τ).dropWhile isDigit)).dropWhile isDigit := by
      unfold preW
      rw [nextInt_afterNum (atNum_firstInt _ _), h4]
      unfold afterNum
      rw [AtNum.toDigit (atNum_firstInt _ _)]
    have e4 : uS (preW (firstIntL τ)) = (firstIntL ((firstIntL ((firstIntL τ).dropWhile isDigit)).dropWhile isDigit)).dropWhile isDigit := by
      unfold uS
      rw [e3, hd]
      unfold afterNum
      rw [AtNum.toDigit (atNum_firstInt _ _)]
    have hsuf : uS (preW (firstIntL τ)) <:+ τ :=
      (uS_suffix _).trans ((preW_suffix (atNum_firstInt _ _)).trans ((nextIntL_suffix _).trans (toStop_suffix isDigit false τ)))
    have hblank : firstIntL (uS (preW (firstIntL τ))) = [] := by
      rw [e4, firstIntL_nil_iff _ q1]; exact j3
    generalize uS (preW (firstIntL τ)) = r at hsuf hblank
    cases r with
    | nil => rfl
    | cons c t =>
      exfalso
      obtain ⟨a, ha⟩ := hsuf
      rw [firstIntL_plain (fun b hb => hcom b (by rw [← ha]; exact List.mem_append_right _ hb))] at hblank
      rw [← ha] at hend
      obtain ⟨b, hb, hbd⟩ := ((endsDigit_append (by simp)).mp hend).mem
      have h3 := List.takeWhile_append_dropWhile (p := fun b => !isDigit b) (l := c :: t)
      have h4 : (c :: t).dropWhile (fun b => !isDigit b) = [] := hblank
      rw [h4, List.append_nil] at h3
      have := List.all_eq_true.mp (List.all_takeWhile (p := fun b => !isDigit b) (l := c :: t)) b (by rw [h3]; exact hb)
      simp [hbd] at this

/-- A position of `x_` and `y_` that is not stored to. -/
theorem runW_keep {i : Nat} : ∀ (acts : List (Act W)) (s s' : Mem W), runActs stepAct acts s = .ok s' → (∀ v, Act.setX i v ∉ acts) → (∀ v, Act.setY i v ∉ acts) →
    s'.x[i]? = s.x[i]? ∧ s'.y[i]? = s.y[i]?
  | [], s, s', h, _, _ => by cases h; exact ⟨rfl, rfl⟩
  | a :: acts, s, s', h, hx, hy => by
    have hx' : ∀ v, Act.setX i v ∉ acts := fun v hv => hx v (List.mem_cons_of_mem _ hv)
    have hy' : ∀ v, Act.setY i v ∉ acts := fun v hv => hy v (List.mem_cons_of_mem _ hv)
    rw [runActs] at h
    cases a with
    | setX j v =>
      have hj : j ≠ i := by rintro rfl; exact hx v (by simp)
      by_cases hb : j < s.x.length
      · simp only [stepAct, store_ok hb, ok_bind] at h
        obtain ⟨g1, g2⟩ := runW_keep acts _ s' h hx' hy'
        rw [g1, g2]
        exact ⟨List.getElem?_set_ne hj, rfl⟩
      · simp only [stepAct, store_bad (Nat.le_of_not_lt hb)] at h; cases h
    | setY j v =>
      have hj : j ≠ i := by rintro rfl; exact hy v (by simp)
      by_cases hb : j < s.y.length
      · simp only [stepAct, store_ok hb, ok_bind] at h
        obtain ⟨g1, g2⟩ := runW_keep acts _ s' h hx' hy'
        rw [g1, g2]
        exact ⟨rfl, List.getElem?_set_ne hj⟩
      · simp only [stepAct, store_bad (Nat.le_of_not_lt hb)] at h; cases h
    | setW j v =>
      by_cases hb : j < s.w.length
      · simp only [stepAct, store_ok hb, ok_bind] at h
        obtain ⟨g1, g2⟩ := runW_keep acts _ s' h hx' hy'
        exact ⟨g1, g2⟩
      · simp only [stepAct, store_bad (Nat.le_of_not_lt hb)] at h; cases h
    | copyW d c =>
      simp only [stepAct] at h
      cases hc : s.w[c]? with
      | none => rw [hc] at h; cases h
      | some v =>
        rw [hc] at h
        by_cases hb : d < s.w.length
        · simp only [store_ok hb, ok_bind] at h
          obtain ⟨g1, g2⟩ := runW_keep acts _ s' h hx' hy'
          exact ⟨g1, g2⟩
        · simp only [store_bad (Nat.le_of_not_lt hb)] at h; cases h

/-- The part of a thread, by where its lines end. -/
theorem region_where {ls : List (List Byte)} {τ : List Byte} (hls : NoNl ls) (hτ : nl ∉ τ) (T tid : Nat) :
    (lineOf (text ls ++ τ) T (tid+1) ≤ ls.length ∧ ∃ g L, firstIntL g = [] ∧ (∀ l ∈ L, l ∈ ls) ∧ regL (text ls ++ τ) T tid = firstIntL (text L ++ g)) ∨
    (∃ L, (∀ l ∈ L, l ∈ ls) ∧ regL (text ls ++ τ) T tid = firstIntL (text L ++ τ)) ∨ regL (text ls ++ τ) T tid = [] := by
  have hJ := lineOf_mono (text ls ++ τ) T tid
  have h0 := startL_tail hls hτ T tid
  have h1 := startL_tail hls hτ T (tid+1)
  generalize lineOf (text ls ++ τ) T tid = J at *
  generalize lineOf (text ls ++ τ) T (tid+1) = J' at *
  by_cases c1 : J' ≤ ls.length
  · left
    have hdrop : ls.drop J = (ls.drop J).take (J' - J) ++ ls.drop J' := by
      conv => lhs; rw [← List.take_append_drop (J' - J) (ls.drop J)]
      rw [List.drop_drop]; congr 2; omega
    refine ⟨c1, garb (text (ls.drop J') ++ τ), (ls.drop J).take (J' - J), (garb_spec _).2, fun l hl => List.mem_of_mem_drop (List.mem_of_mem_take hl), ?_⟩
    apply regL_eq
    rw [h0, h1, startAt, startAt, if_pos c1, if_pos (by omega)]
    have := region_garb ((ls.drop J).take (J' - J)) (text (ls.drop J') ++ τ)
      (fun l hl => hls l (List.mem_of_mem_drop (List.mem_of_mem_take hl)))
    rw [← this, ← List.append_assoc, ← text_append, ← hdrop]
  · right
    rw [startAt, if_neg c1] at h1
    by_cases c2 : J ≤ ls.length
    · left
      refine ⟨ls.drop J, fun l hl => List.mem_of_mem_drop hl, ?_⟩
      apply regL_eq
      rw [h0, h1, startAt, if_pos c2, List.append_nil]
    · right
      apply regL_eq
      rw [h0, h1, startAt, if_neg c2]; rfl

/-- The entries before thread `t`, by the lines. -/
theorem cStart_take {ls : List (List Byte)} {τ : List Byte} (hls : NoNl ls) (hτ : nl ∉ τ) (h2 : ∀ l ∈ ls ++ [τ], Spec.ints l = [] ∨ 2 ≤ (Spec.ints l).length) (T t : Nat) :
    cStart (text ls ++ τ) T t = (((ls ++ [τ]).take (lineOf (text ls ++ τ) T t)).filterMap Spec.edge).length := by
  unfold cStart
  rw [show cPart (text ls ++ τ) T = fun t => ((segLines (text ls ++ τ) (ls ++ [τ]) T t).filterMap Spec.edge).length from
    funext (fun t => cPart_lines hls hτ h2 T t)]
  rw [sum_lengths (fun t => (segLines (text ls ++ τ) (ls ++ [τ]) T t).filterMap Spec.edge)]
  congr 1
  rw [← seg_flatten, List.filterMap_flatten, List.map_map]; rfl

/-- A file cut within its last entry: no label of that entry is stored, and its weight inside of the array. -/
theorem cut_parts {lw ww : Nat} {ls : List (List Byte)} {τ : List Byte} (hls : NoNl ls) (hτ : nl ∉ τ) (h3 : ∀ l ∈ ls, Spec.ints l = [] ∨ 3 ≤ (Spec.ints l).length)
    (hcut : CutTail τ) {T : Nat} : ∀ tid < T, ¬ TornOut lw (uV ww) uS (text ls ++ τ) T tid ∧
      ((wPart lw (uV ww) uS (text ls ++ τ) T tid).1 = [] ∨
        cStart (text ls ++ τ) T tid + (wPart lw (uV ww) uS (text ls ++ τ) T tid).1.length ≤ (ls.filterMap Spec.edge).length) := by
  intro tid ht
  have h2 : ∀ l ∈ ls ++ [τ], Spec.ints l = [] ∨ 2 ≤ (Spec.ints l).length := by
    intro l hl
    rcases List.mem_append.mp hl with hl | hl
    · rcases h3 l hl with h | h
      · exact .inl h
      · exact .inr (by omega)
    · simp only [List.mem_singleton] at hl; subst hl; exact .inr hcut.two
  have hmem : ∀ {L : List (List Byte)}, (∀ l ∈ L, l ∈ ls) → NoNl L ∧ ∀ l ∈ L, Spec.ints l = [] ∨ 3 ≤ (Spec.ints l).length :=
    fun h => ⟨fun l hl => hls l (h l hl), fun l hl => h3 l (h l hl)⟩
  have hmono := cStart_mono (text ls ++ τ) T (show tid + 1 ≤ T by omega)
  have hle := wPart_le (lw := lw) (wv := uV ww) uS_suffix (text ls ++ τ) T tid
  have hsucc := cStart_succ (text ls ++ τ) T tid
  have hall := cStart_lines hls hτ h2 (T := T) (by omega)
  have hE : ((ls ++ [τ]).filterMap Spec.edge).length = (ls.filterMap Spec.edge).length + 1 := by
    have hl2 := hcut.two
    match hi : Spec.ints τ, hl2 with
    | x :: y :: t, _ =>
      have he : Spec.edge τ = some (x, y) := by unfold Spec.edge; rw [hi]
      simp [he]
  rcases region_where hls hτ T tid with ⟨hw, g, L, hg, hin, hreg⟩ | ⟨L, hin, hreg⟩ | hreg
  · obtain ⟨a, b⟩ := hmem hin
    obtain ⟨q, i1, i2, i3⟩ := scan_lines (lw := lw) (ww := ww) (σ := g) L a b _ 0 (Nat.le_refl _) (by rw [hg]; exact Nat.le_refl _)
    rw [hg, ← hreg] at i3
    refine ⟨fun h => h.1 i3, .inr ?_⟩
    have h4 := cStart_take hls hτ h2 T (tid+1)
    rw [List.take_append_of_le_length hw] at h4
    have h5 := ((List.take_sublist (lineOf (text ls ++ τ) T (tid+1)) ls).filterMap Spec.edge).length_le
    omega
  · obtain ⟨a, b⟩ := hmem hin
    obtain ⟨q, i1, i2, i3⟩ := scan_lines (lw := lw) (ww := ww) (σ := τ) L a b _ _ (Nat.le_refl _) (Nat.le_refl _)
    obtain ⟨j1, j2, j3⟩ := cut_scan (lw := lw) (ww := ww) hτ hcut (Nat.le_refl _)
    rw [← hreg] at i1 i2
    rw [j1] at i1
    rw [j2] at i2
    have i1 : cPart (text ls ++ τ) T tid = q + 1 := i1
    have i2 : (wPart lw (uV ww) uS (text ls ++ τ) T tid).1.length = q := i2
    refine ⟨fun h => ?_, .inr (by omega)⟩
    have := h.2
    omega
  · have : wPart lw (uV ww) uS (text ls ++ τ) T tid = ([], none) := by unfold wPart; rw [hreg]; rfl
    exact ⟨fun h => h.1 (by rw [this]), .inl (by rw [this])⟩

theorem fileReader_all (μ : Mapping) : fileReader μ = rd μ.bytes.length μ.bytes := by simp [fileReader, rd]

theorem readEl_intro {μ : Mapping} {lw ow : Nat} {cfg : Cfg} {wk : WKind W} {T : Nat} {r : Reader} {p : Plan W} (h : readElPlan μ lw ow cfg wk T r = .ok p)
    (j : Junk W) : ReadEl μ lw ow cfg wk T r (execPlan lw wk.wgt j p p.threads.flatten) := by
  unfold ReadEl
  rw [h]
  exact ⟨j, _, interleave_flatten _, rfl⟩

end Pigo
