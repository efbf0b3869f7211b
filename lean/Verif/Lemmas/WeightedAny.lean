import Verif.Lemmas.TensorTorn

/-!
# Weighted edge lists out of any text, without flags

Pass 1 of the loader without flags does not look at weights (impl/coo.impl.hpp 286–297): two numbers make an entry.  Pass 2 reads
three.  What both do on an arbitrary region of an arbitrary file.
-/

namespace Pigo

variable {W : Type} {μ : Mapping} {e : Nat}

/-- The byte at the end offset can be loaded and is a digit (the first label of the next thread) or the zero after the file. -/
def EndB (μ : Mapping) (e : Nat) : Prop := ∃ b, μ.get e = .ok b ∧ (isDigit b = true ∨ b = 0)

theorem EndB.readable (h : EndB μ e) : Readable μ e := by
  obtain ⟨b, h, _⟩ := h
  unfold Mapping.get at h
  unfold Readable
  cases hb : μ.bytes[e]? with
  | some c =>
    have := (List.getElem?_eq_some_iff.mp hb).1
    omega
  | none =>
    rw [hb] at h
    simp only at h
    split at h
    · assumption
    · cases h

theorem endB_file {μ : Mapping} (h : 0 < μ.pad) : EndB μ μ.bytes.length := ⟨0, by simp [Mapping.get, h], .inr rfl⟩

/-- Reading a weight anywhere in the text of the file `μ`: the value and what is left. -/
structure AnyW (μ : Mapping) (wk : WKind W) (wv : List Byte → W) (ws : List Byte → List Byte) : Prop where
  wgt : wk.wgt = true
  suffix : ∀ s, ws s <:+ s
  read : ∀ {e : Nat} {s : List Byte}, View μ e s → EndB μ e → wk.read μ (rd e s) = .ok (wv s, rd e (ws s))

/-- What is left after a number. -/
def afterNum (s : List Byte) : List Byte := (toDigitL s).dropWhile isDigit

/-- The number. -/
def numAt (w : Nat) (s : List Byte) : Nat := decVal ((toDigitL s).takeWhile isDigit) % 2 ^ w

theorem wUint_any (μ : Mapping) (w : Nat) : AnyW μ (wUint w) (fun s => numAt w (nextIntL s)) (fun s => afterNum (nextIntL s)) where
  wgt := rfl
  suffix s := (toDigitL_suffix _).trans (nextIntL_suffix _)
  read v he := by
    have hr := he.readable
    have v2 := v.of_suffix (nextIntL_suffix _)
    simp only [wUint, moveToNextInt_eq v hr, ok_bind, readInt_wrapU _ v2]
    rfl

/-- Pass 1: two numbers, then the next line. -/
def cScan : Nat → List Byte → Nat
  | 0, _ => 0
  | n+1, s => if s = [] then 0 else if nextIntL s = [] then 0 else cScan n (nextLineL (nextIntL s)) + 1

/-- Where pass 2 looks for the weight. -/
def preW (s : List Byte) : List Byte := afterNum (nextIntL (afterNum s))

/-- Pass 2: two numbers and a weight, then the next line; the complete entries, and the weight of an entry that is cut off by
the end of the region. -/
def wScan (lw : Nat) (wv : List Byte → W) (ws : List Byte → List Byte) : Nat → List Byte → List (Nat × Nat × W) × Option W
  | 0, _ => ([], none)
  | n+1, s => if s = [] then ([], none) else if ws (preW s) = [] then ([], some (wv (preW s))) else
      ((numAt lw s, numAt lw (nextIntL (afterNum s)), wv (preW s)) :: (wScan lw wv ws n (nextLineL (ws (preW s)))).1,
        (wScan lw wv ws n (nextLineL (ws (preW s)))).2)

/-- The text is empty or begins with a digit. -/
def AtNum (s : List Byte) : Prop := ∀ c t, s = c :: t → isDigit c = true

theorem AtNum.toDigit {s : List Byte} (h : AtNum s) : toDigitL s = s := by
  cases s with
  | nil => rfl
  | cons c t => simp [toDigitL, h c t rfl]

theorem atNum_firstInt (b : Bool) (s : List Byte) : AtNum (toStop isDigit b s) := fun c t h => (toStop_head isDigit b s c t h).1

theorem atNum_nextInt (s : List Byte) : AtNum (nextIntL s) := atNum_firstInt _ _

theorem atNum_nextLine (s : List Byte) : AtNum (nextLineL s) := atNum_firstInt _ _

theorem nextInt_afterNum {s : List Byte} (h : AtNum s) : nextIntL (afterNum s) = nextIntL s := by
  unfold afterNum; rw [h.toDigit, nextIntL_dropWhile]

theorem preW_suffix {s : List Byte} (h : AtNum s) : preW s <:+ nextIntL s := by
  unfold preW
  rw [nextInt_afterNum h]
  exact toDigitL_suffix _

theorem nextInt_short {s : List Byte} (h : AtNum s) (hs : s ≠ []) : (nextIntL s).length < s.length := by
  cases s with
  | nil => exact absurd rfl hs
  | cons c t =>
    have hc := h c t rfl
    unfold nextIntL
    rw [List.dropWhile_cons, if_pos hc]
    have : (firstIntL (t.dropWhile isDigit)).length ≤ (t.dropWhile isDigit).length := (toStop_suffix isDigit false _).length_le
    have := (dropWhile_suffix' isDigit t).length_le
    simp only [List.length_cons]
    omega

theorem cScan_stable : ∀ (n : Nat) (s : List Byte), AtNum s → s.length ≤ n → ∀ m, s.length ≤ m → cScan n s = cScan m s
  | 0, s, _, hn, m, hm => by
    have : s = [] := List.length_eq_zero_iff.mp (by omega)
    subst this
    cases m <;> simp [cScan]
  | n+1, s, h, hn, m, hm => by
    by_cases hs : s = []
    · subst hs; cases m <;> simp [cScan]
    · have := List.length_pos_iff.mpr hs
      obtain ⟨m, rfl⟩ : ∃ q, m = q + 1 := ⟨m - 1, by omega⟩
      rw [cScan, cScan, if_neg hs, if_neg hs]
      split
      · rfl
      · have h1 := nextInt_short h hs
        have h2 := (nextLineL_suffix (nextIntL s)).length_le
        rw [cScan_stable n _ (atNum_nextLine _) (by omega) m (by omega)]

/-! ## Pass 2 completes no more entries than pass 1 counts -/

/-- The first number of a text with a line in front of it. -/
theorem firstInt_line (t : List Byte) : ∀ (b : Bool) (a : List Byte), toStop isDigit b (a ++ nl :: t) = firstIntL t ∨
    ∃ a', toStop isDigit b (a ++ nl :: t) = a' ++ nl :: t
  | true, [] => .inl (by simp [toStop, firstIntL])
  | false, [] => .inl (by simp [toStop, firstIntL, isCom_nl, isDigit_nl])
  | true, c :: a => by
    simp only [List.cons_append, toStop]
    split
    · exact firstInt_line t false a
    · exact firstInt_line t true a
  | false, c :: a => by
    simp only [List.cons_append, toStop]
    split
    · exact firstInt_line t true a
    · split
      · exact .inr ⟨c :: a, rfl⟩
      · exact firstInt_line t false a

theorem dropDigits_line (t : List Byte) : ∀ (a : List Byte), ∃ a', (a ++ nl :: t).dropWhile isDigit = a' ++ nl :: t
  | [] => ⟨[], by simp [isDigit_nl]⟩
  | c :: a => by
    rw [List.cons_append, List.dropWhile_cons]
    split
    · exact dropDigits_line t a
    · exact ⟨c :: a, rfl⟩

/-- The second number of a text is not behind that of a later line. -/
theorem second_mono (t a : List Byte) : firstIntL (a ++ nl :: t) = firstIntL t ∨ firstIntL t <:+ nextIntL (firstIntL (a ++ nl :: t)) := by
  rcases firstInt_line t false a with h | ⟨a', h⟩
  · exact .inl h
  · right
    have h' : firstIntL (a ++ nl :: t) = a' ++ nl :: t := h
    rw [h']
    unfold nextIntL
    obtain ⟨a'', h2⟩ := dropDigits_line t a'
    rw [h2]
    exact toStop_after_nl false a'' t

/-- A text with more lines in front has at least as many entries for pass 1. -/
theorem cScan_mono : ∀ (n : Nat) (t a : List Byte), (firstIntL (a ++ nl :: t)).length ≤ n →
    cScan n (firstIntL t) ≤ cScan n (firstIntL (a ++ nl :: t))
  | 0, _, _, _ => by simp [cScan]
  | n+1, t, a, hn => by
    rcases second_mono t a with h | h
    · rw [h]; exact Nat.le_refl _
    · by_cases ht : firstIntL t = []
      · simp [cScan, ht]
      · have hne : nextIntL (firstIntL (a ++ nl :: t)) ≠ [] := by
          intro hh; rw [hh] at h; exact ht (List.suffix_nil.mp h)
        have hs : firstIntL (a ++ nl :: t) ≠ [] := by
          intro hh; rw [hh] at hne; exact hne rfl
        have hlt := nextInt_short (atNum_firstInt false (a ++ nl :: t)) hs
        have hlt : (nextIntL (firstIntL (a ++ nl :: t))).length < (firstIntL (a ++ nl :: t)).length := hlt
        rw [cScan, if_neg ht, cScan, if_neg hs, if_neg hne]
        split
        · omega
        · have hsuf : nextIntL (firstIntL t) <:+ nextIntL (firstIntL (a ++ nl :: t)) := (nextIntL_suffix _).trans h
          refine Nat.add_le_add_right ?_ 1
          -- the lines behind
          generalize nextIntL (firstIntL t) = u at *
          generalize nextIntL (firstIntL (a ++ nl :: t)) = u' at *
          have he : eolL u <:+ eolL u' := dropWhile_mono _ hsuf
          have hnl : ∀ u, eolL u = [] ∨ ∃ t, eolL u = nl :: t := eolL_cases
          rcases hnl u with h1 | ⟨t1, h1⟩
          · have : nextLineL u = [] := by
              unfold nextLineL nextIntL; rw [h1]; rfl
            rw [this]; cases n <;> simp [cScan]
          · rcases hnl u' with h2 | ⟨t2, h2⟩
            · rw [h1, h2] at he; cases List.suffix_nil.mp he
            · have e1 : nextLineL u = firstIntL t1 := by unfold nextLineL; rw [h1, nextIntL_nl]
              have e2 : nextLineL u' = firstIntL t2 := by unfold nextLineL; rw [h2, nextIntL_nl]
              have hl2 : (nextLineL u').length ≤ u'.length := (nextLineL_suffix u').length_le
              rw [e1, e2]
              rw [h1, h2] at he
              obtain ⟨b, hb⟩ := he
              cases b with
              | nil =>
                have : t1 = t2 := by simpa using hb
                rw [this]; exact Nat.le_refl _
              | cons c b =>
                have hb2 : t2 = b ++ nl :: t1 := by
                  have := (List.cons.inj hb).2
                  exact this.symm
                rw [hb2]
                rw [e2, hb2] at hl2
                exact cScan_mono n t1 b (by omega)

theorem cScan_suffix {n : Nat} {u u' : List Byte} (h : u <:+ u') (hn : (nextLineL u').length ≤ n) :
    cScan n (nextLineL u) ≤ cScan n (nextLineL u') := by
  have he : eolL u <:+ eolL u' := dropWhile_mono _ h
  rcases eolL_cases u with h1 | ⟨t1, h1⟩
  · have : nextLineL u = [] := by
      unfold nextLineL nextIntL; rw [h1]; rfl
    rw [this]; cases n <;> simp [cScan]
  · rcases eolL_cases u' with h2 | ⟨t2, h2⟩
    · rw [h1, h2] at he; cases List.suffix_nil.mp he
    · have e1 : nextLineL u = firstIntL t1 := by unfold nextLineL; rw [h1, nextIntL_nl]
      have e2 : nextLineL u' = firstIntL t2 := by unfold nextLineL; rw [h2, nextIntL_nl]
      rw [e2] at hn
      rw [e1, e2]
      rw [h1, h2] at he
      obtain ⟨b, hb⟩ := he
      cases b with
      | nil =>
        have : t1 = t2 := by simpa using hb
        rw [this]; exact Nat.le_refl _
      | cons c b =>
        have hb2 : t2 = b ++ nl :: t1 := (List.cons.inj hb).2.symm
        rw [hb2] at hn ⊢
        exact cScan_mono n t1 b hn

/-- Pass 2 completes at most as many entries as pass 1 counts, and begins one more at most. -/
theorem wScan_le (lw : Nat) {wv : List Byte → W} {ws : List Byte → List Byte} (hws : ∀ s, ws s <:+ s) : ∀ (n : Nat) (s : List Byte),
    AtNum s → s.length ≤ n → (wScan lw wv ws n s).1.length ≤ cScan n s
  | 0, _, _, _ => by simp [wScan]
  | n+1, s, h, hn => by
    rw [wScan, cScan]
    split
    · simp
    · rename_i hs
      split
      · simp
      · rename_i hne
        have hsuf : ws (preW s) <:+ nextIntL s := (hws _).trans (preW_suffix h)
        have hx : nextIntL s ≠ [] := by
          intro hh; rw [hh] at hsuf; exact hne (List.suffix_nil.mp hsuf)
        rw [if_neg hx]
        have h1 := nextInt_short h hs
        have h2 := hsuf.length_le
        have h3 := (nextLineL_suffix (ws (preW s))).length_le
        have h4 := (nextLineL_suffix (nextIntL s)).length_le
        have ih := wScan_le lw (wv := wv) hws n (nextLineL (ws (preW s))) (atNum_nextLine _) (by omega)
        have := cScan_suffix (n := n) hsuf (by omega)
        simp only [List.length_cons]
        omega

theorem cScan_le : ∀ (n : Nat) (s : List Byte), AtNum s → cScan n s ≤ s.length
  | 0, _, _ => by simp [cScan]
  | n+1, s, h => by
    rw [cScan]
    split
    · simp
    · rename_i hs
      split
      · simp
      · have h1 := nextInt_short h hs
        have h2 := (nextLineL_suffix (nextIntL s)).length_le
        have := cScan_le n _ (atNum_nextLine (nextIntL s))
        omega

end Pigo
