import Verif.Lemmas.TensorCut

/-!
# An entry torn at the end of the file
-/

namespace Pigo

variable {W : Type} {μ : Mapping} {e : Nat}

/-- The text ends in a digit. -/
def EndsDigit (s : List Byte) : Prop := ∃ a c, s = a ++ [c] ∧ isDigit c = true

theorem EndsDigit.mem {s : List Byte} (h : EndsDigit s) : ∃ b ∈ s, isDigit b = true := by
  obtain ⟨a, c, rfl, h⟩ := h
  exact ⟨c, by simp, h⟩

theorem endsDigit_append {a b : List Byte} (hb : b ≠ []) : EndsDigit (a ++ b) ↔ EndsDigit b := by
  constructor
  · rintro ⟨u, c, h, hc⟩
    have h1 := List.dropLast_concat_getLast hb
    rw [← h1, ← List.append_assoc] at h
    have h2 := List.append_inj_right' h (by rfl)
    injection h2 with h2 _
    exact ⟨b.dropLast, b.getLast hb, h1.symm, by rw [h2]; exact hc⟩
  · rintro ⟨u, c, h, hc⟩
    exact ⟨a ++ u, c, by rw [h, List.append_assoc], hc⟩

theorem digitRuns_toDigit (s : List Byte) : Spec.digitRuns (toDigitL s) = Spec.digitRuns s := by
  unfold toDigitL
  induction s with
  | nil => rfl
  | cons c s ih =>
    rw [List.dropWhile_cons]
    by_cases hc : isDigit c = true
    · simp [hc]
    · have hc : isDigit c = false := by simpa using hc
      simp only [hc, Bool.not_false, if_true]
      rw [ih, digitRuns_cons_nondigit _ _ hc]

theorem toDigitL_head (s : List Byte) : ∀ c t, toDigitL s = c :: t → isDigit c = true := by
  intro c t h
  have := List.head?_dropWhile_not (p := fun b => !isDigit b) (l := s)
  unfold toDigitL at h
  rw [h] at this
  simpa using this

/-- What the loop over the coordinates reads out of a text with too few numbers. -/
theorem takeInts_cut : ∀ (k : Nat) (s : List Byte), ((Spec.digitRuns s).length < k ∨ (Spec.digitRuns s).length = k ∧ EndsDigit s) →
    (takeInts k s).2 = none ∧ (EndsDigit s → (takeInts k s).1.length + 1 = (Spec.digitRuns s).length) ∧
    (¬ EndsDigit s → (takeInts k s).1.length = (Spec.digitRuns s).length)
  | 0, s, h => by
    exfalso
    rcases h with h | ⟨h, he⟩
    · omega
    · obtain ⟨b, hb, hd⟩ := he.mem
      have h0 : Spec.digitRuns s = [] := List.length_eq_zero_iff.mp h
      have hs : toDigitL s ≠ [] := by
        intro hh
        have h3 := List.takeWhile_append_dropWhile (p := fun b => !isDigit b) (l := s)
        have h4 : s.dropWhile (fun b => !isDigit b) = [] := hh
        rw [h4, List.append_nil] at h3
        have := List.all_eq_true.mp (List.all_takeWhile (p := fun b => !isDigit b) (l := s)) b (by rw [h3]; exact hb)
        simp [hd] at this
      obtain ⟨c, t, hct⟩ := List.exists_cons_of_ne_nil hs
      have hc := toDigitL_head s c t hct
      have hsplit := List.takeWhile_append_dropWhile (p := isDigit) (l := toDigitL s)
      have h5 := digitRuns_run ((toDigitL s).takeWhile isDigit) ((toDigitL s).dropWhile isDigit) (fun x hx => List.all_eq_true.mp List.all_takeWhile x hx)
        (by rw [hct]; simp [hc]) (by
          intro x u hx
          have := List.head?_dropWhile_not (p := isDigit) (l := toDigitL s)
          rw [hx] at this; simpa using this)
      rw [hsplit, digitRuns_toDigit, h0] at h5
      cases h5
  | k+1, s, h => by
    have hpre : ∃ p, s = p ++ toDigitL s ∧ ∀ b ∈ p, isDigit b = false := by
      refine ⟨s.takeWhile (fun b => !isDigit b), ?_, ?_⟩
      · unfold toDigitL; exact (List.takeWhile_append_dropWhile).symm
      · intro b hb
        have := List.all_eq_true.mp List.all_takeWhile b hb
        simpa using this
    obtain ⟨p, hp, hpd⟩ := hpre
    have hruns := digitRuns_toDigit s
    have hsplit := List.takeWhile_append_dropWhile (p := isDigit) (l := toDigitL s)
    have hdig : ∀ x ∈ (toDigitL s).takeWhile isDigit, isDigit x = true := fun x hx => List.all_eq_true.mp List.all_takeWhile x hx
    have hr0 : ∀ c u, (toDigitL s).dropWhile isDigit = c :: u → isDigit c = false := by
      intro x u hx
      have := List.head?_dropWhile_not (p := isDigit) (l := toDigitL s)
      rw [hx] at this; simpa using this
    rw [takeInts]
    split
    · rename_i hnil
      refine ⟨rfl, ?_, ?_⟩
      · intro he
        have ht : toDigitL s ≠ [] := by
          intro hh
          rw [hh, List.append_nil] at hp
          obtain ⟨b, hb, hd⟩ := he.mem
          rw [hp] at hb
          rw [hpd b hb] at hd; cases hd
        rw [hnil, List.append_nil] at hsplit
        rw [← hruns, ← hsplit, ← List.append_nil ((toDigitL s).takeWhile isDigit), digitRuns_run _ _ hdig (by rw [hsplit]; exact ht) (by simp), digitRuns_nil]
        rfl
      · intro he
        by_cases ht : toDigitL s = []
        · rw [← hruns, ht, digitRuns_nil]; rfl
        · exfalso
          apply he
          rw [hnil, List.append_nil] at hsplit
          rw [hp, endsDigit_append ht]
          refine ⟨(toDigitL s).dropLast, (toDigitL s).getLast ht, (List.dropLast_concat_getLast ht).symm, ?_⟩
          apply hdig
          rw [hsplit]; exact List.getLast_mem _
    · rename_i hne
      have ht : toDigitL s ≠ [] := fun hh => hne (by rw [hh]; rfl)
      obtain ⟨c, t, hct⟩ := List.exists_cons_of_ne_nil ht
      have hc := toDigitL_head s c t hct
      have hd0 : (toDigitL s).takeWhile isDigit ≠ [] := by rw [hct]; simp [hc]
      have hcount : (Spec.digitRuns s).length = (Spec.digitRuns ((toDigitL s).dropWhile isDigit)).length + 1 := by
        rw [← hruns]
        conv => lhs; rw [← hsplit]
        rw [digitRuns_run _ _ hdig hd0 hr0]; rfl
      have hends : EndsDigit s ↔ EndsDigit ((toDigitL s).dropWhile isDigit) := by
        conv => lhs; rw [hp, ← hsplit]
        rw [← List.append_assoc]
        exact endsDigit_append hne
      obtain ⟨i1, i2, i3⟩ := takeInts_cut k ((toDigitL s).dropWhile isDigit) (by
        rcases h with h | ⟨h, he⟩
        · left; omega
        · right; exact ⟨by omega, hends.mp he⟩)
      refine ⟨i1, fun he => ?_, fun he => ?_⟩
      · have := i2 (hends.mp he)
        simp only [List.length_cons]; omega
      · have := i3 (fun hh => he (hends.mpr hh))
        simp only [List.length_cons]; omega

/-- Without comments the first integer is the first digit. -/
theorem firstIntL_plain {s : List Byte} (h : ∀ b ∈ s, isCom b = false) : firstIntL s = toDigitL s := by
  unfold firstIntL toDigitL
  induction s with
  | nil => rfl
  | cons c s ih =>
    rw [toStop.eq_3, h c (by simp), List.dropWhile_cons]
    simp only [Bool.false_eq_true, if_false]
    by_cases hc : isDigit c = true
    · simp [hc]
    · have hc : isDigit c = false := by simpa using hc
      simp only [hc, Bool.not_false, if_true, Bool.false_eq_true, if_false]
      exact ih (fun b hb => h b (List.mem_cons_of_mem _ hb))

theorem tensorCount_any {lw k pos : Nat} (hr : Readable μ e) {s : List Byte} (v : View μ e s) :
    tensorCount μ lw wNone k pos (rd e s) = .ok (match (takeInts k s).2 with | none => (pos, rd e []) | some s' => (pos + 1, rd e (nextLineL s'))) := by
  obtain ⟨i1, i2⟩ := takeInts_len k s
  rw [tensorCount, skipCoords_any v]
  cases h' : (takeInts k s).2 with
  | none => simp only [ok_bind, Bool.not_false, if_true]
  | some s' =>
    obtain ⟨h1, h2, h3⟩ := i1 s' h'
    have v1 := v.of_suffix h2
    have v2 : View μ e (eolL s') := v1.of_suffix (dropWhile_suffix' _ _)
    simp only [ok_bind, Bool.not_true, Bool.false_eq_true, if_false]
    rw [moveToEol_eq v1, ok_bind, moveToNextInt_eq v2 hr]
    rfl

theorem suffix_eq_of_length {a b s : List Byte} (ha : a <:+ s) (hb : b <:+ s) (h : a.length = b.length) : a = b := by
  obtain ⟨u, hu⟩ := ha
  obtain ⟨w, hw⟩ := hb
  exact List.append_inj_right' (hu.trans hw.symm) h

/-- The scan of lines with entries in front of a torn entry. -/
theorem tScan_torn {lw k : Nat} (hk : 0 < k) {ent : List Byte → Option (List Nat × Unit)} {σ : List Byte} (hσ : (takeInts k (firstIntL σ)).2 = none)
    (hσ' : (takeInts k (firstIntL σ)).1 ≠ []) : ∀ (L : List (List Byte)) (n : Nat), (∀ l ∈ L, TEntOk lw wNone k ent l) → (firstIntL (text L ++ σ)).length ≤ n →
    (tScan k n (firstIntL (text L ++ σ))).2.length ≠ (tScan k n (firstIntL (text L ++ σ))).1 * k
  | [], n, _, hn => by
    rw [text_nil, List.nil_append] at hn ⊢
    have h0 : firstIntL σ ≠ [] := by
      intro hh
      rw [hh] at hσ'
      have := (takeInts_len k []).2 (by rw [← hh]; exact hσ)
      apply hσ'
      exact List.length_eq_zero_iff.mp (Nat.le_zero.mp this.2)
    obtain ⟨n, rfl⟩ : ∃ q, n = q + 1 := ⟨n - 1, by have := List.length_pos_iff.mpr h0; omega⟩
    rw [tScan, if_neg h0, hσ]
    have := List.length_pos_iff.mpr hσ'
    simp only [Nat.zero_mul]; omega
  | l :: L, n, hL, hn => by
    have hl := hL l (by simp)
    have hL' := fun l' h' => hL l' (List.mem_cons_of_mem _ h')
    have hfirst : firstIntL (text (l :: L) ++ σ) = if firstIntL l = [] then firstIntL (text L ++ σ) else firstIntL l ++ nl :: (text L ++ σ) := by
      rw [text_cons, List.append_assoc, List.cons_append]
      exact toStop_line _ isDigit_nl l _ hl.1
    have hstep := (hl.count (μ := ⟨firstIntL l ++ nl :: (text L ++ σ), 1⟩)).2
    cases he : ent l with
    | none =>
      rw [he] at hstep
      rw [hfirst, if_pos hstep] at hn ⊢
      exact tScan_torn hk hσ hσ' L n hL' hn
    | some en =>
      rw [he] at hstep
      obtain ⟨hne, hstep⟩ := hstep
      rw [hfirst, if_neg hne] at hn ⊢
      have hr : Readable ⟨firstIntL l ++ nl :: (text L ++ σ), 1⟩ (firstIntL l ++ nl :: (text L ++ σ)).length := by unfold Readable; simp
      have v := View.full ⟨firstIntL l ++ nl :: (text L ++ σ), 1⟩
      have h1 := hstep _ (text L ++ σ) 0 hr v
      rw [tensorCount_any hr v] at h1
      have hlen : (firstIntL (text L ++ σ)).length ≤ (text L ++ σ).length := (toStop_suffix isDigit false (text L ++ σ)).length_le
      rw [List.length_append, List.length_cons] at hn
      obtain ⟨n, rfl⟩ : ∃ q, n = q + 1 := ⟨n - 1, by omega⟩
      rw [tScan, if_neg (by simp)]
      cases h2 : (takeInts k (firstIntL l ++ nl :: (text L ++ σ))).2 with
      | none =>
        rw [h2] at h1
        injection h1 with h1
        injection h1 with h1 _
        cases h1
      | some s' =>
        rw [h2] at h1
        injection h1 with h1
        injection h1 with _ h1
        obtain ⟨j1, j2, _⟩ := (takeInts_len k _).1 s' h2
        have hs1 : nextLineL s' <:+ firstIntL l ++ nl :: (text L ++ σ) := (nextLineL_suffix s').trans j2
        have hs2 : firstIntL (text L ++ σ) <:+ firstIntL l ++ nl :: (text L ++ σ) :=
          (toStop_suffix _ _ _).trans ((List.suffix_cons _ _).trans (List.suffix_append _ _))
        have heq : nextLineL s' = firstIntL (text L ++ σ) := by
          refine suffix_eq_of_length hs1 hs2 ?_
          simp only [rd, Reader.mk.injEq] at h1
          have := hs1.length_le
          have := hs2.length_le
          omega
        simp only [heq]
        have ih := tScan_torn hk hσ hσ' L n hL' (by omega)
        rw [List.length_append, j1, Nat.add_mul]
        omega

/-- The last thread with something to do. -/
theorem last_region {LS : List (List Byte)} {τ : List Byte} (hls : NoNl LS) (hτ : nl ∉ τ) {T : Nat} (hT : 0 < T) (hne : firstIntL (text LS ++ τ) ≠ []) :
    ∃ tid < T, ∃ J ≤ LS.length, regL (text LS ++ τ) T tid = firstIntL (text (LS.drop J) ++ τ) ∧ regL (text LS ++ τ) T tid ≠ [] ∧
      ∀ t, tid < t → regL (text LS ++ τ) T t = [] := by
  have h0 : startL (text LS ++ τ) T 0 ≠ [] := by unfold startL; simpa using hne
  have hT' : startL (text LS ++ τ) T T = [] := by
    unfold startL
    rw [if_neg (by omega), cut_last _ _ hT, List.drop_length]
    rfl
  have key : ∀ n ≤ T, startL (text LS ++ τ) T n = [] → ∃ tid < n, startL (text LS ++ τ) T tid ≠ [] ∧ startL (text LS ++ τ) T (tid+1) = [] := by
    intro n
    induction n with
    | zero => intro _ h; exact absurd h h0
    | succ n ih =>
      intro hn h
      by_cases h1 : startL (text LS ++ τ) T n = []
      · obtain ⟨t, ht, h⟩ := ih (by omega) h1
        exact ⟨t, by omega, h⟩
      · exact ⟨n, by omega, h1, h⟩
  obtain ⟨tid, ht, h1, h2⟩ := key T (Nat.le_refl _) hT'
  have hreg : regL (text LS ++ τ) T tid = startL (text LS ++ τ) T tid := regL_eq (by rw [h2, List.append_nil])
  have hmono : ∀ d, startL (text LS ++ τ) T (tid + 1 + d) = [] := by
    intro d
    induction d with
    | zero => exact h2
    | succ d ih =>
      have := startL_mono (text LS ++ τ) T (tid + 1 + d)
      rw [ih] at this
      exact List.suffix_nil.mp this
  refine ⟨tid, ht, lineOf (text LS ++ τ) T tid, ?_, ?_, by rw [hreg]; exact h1, ?_⟩
  · rw [startL_tail hls hτ] at h1
    unfold startAt at h1
    split at h1
    · assumption
    · exact absurd rfl h1
  · rw [hreg]
    rw [startL_tail hls hτ] at h1 ⊢
    unfold startAt at h1 ⊢
    split
    · rfl
    · rename_i hh; rw [if_neg hh] at h1; exact absurd rfl h1
  · intro t ht'
    have := hmono (t - tid - 1)
    rw [show tid + 1 + (t - tid - 1) = t by omega] at this
    unfold regL
    rw [this]; simp

/-- A torn entry in the last part: every execution stores outside of the array. -/
theorem torn_oob {s : List Byte} (v : View μ e s) (hr : Readable μ e) {lw ow k T : Nat} (hk : 0 < k) (ho : tensorOrder μ ow false (rd e s) = .ok k)
    (hfit : s.length < 2 ^ ow) {tid : Nat} (ht : tid < T) (htorn : Torn k s T tid) (hlast : ∀ t, tid < t → regL s T t = []) :
    ∀ out, (readTensorEl μ lw ow wNone T (rd e s)).Out out → out = .error .oob := by
  refine (readTensorEl_any v hr hk (by omega) ho hfit).1 ⟨tid, ht, htorn, ?_⟩
  have : ∀ d, tid + 1 + d ≤ T → tStart k s T (tid + 1 + d) = tStart k s T (tid + 1) := by
    intro d
    induction d with
    | zero => intro _; rfl
    | succ d ih =>
      intro h
      rw [← ih (by omega), show tid + 1 + (d + 1) = (tid + 1 + d) + 1 by omega, tStart_succ]
      have : (tPart k s T (tid + 1 + d)).1 = 0 := by
        unfold tPart
        rw [hlast _ (by omega)]; rfl
      rw [this]; rfl
  have h := this (T - tid - 1) (by omega)
  rw [show tid + 1 + (T - tid - 1) = T by omega] at h
  exact h.symm

end Pigo
