import Verif.Lemmas.FpAny
import Verif.Lemmas.WeightedStored
import Verif.Lemmas.Formats
import Verif.Lemmas.Ascii
import Verif.Lemmas.Words

/-!
# Lines whose weights are literals or words
-/

namespace Pigo

variable {V : Type} (ops : FpOps V)

/-! ## `read_fp` on the texts in question -/

theorem dropWhile_gap {p : Byte → Bool} {g s : List Byte} (hg : ∀ b ∈ g, p b = true) : (g ++ s).dropWhile p = s.dropWhile p := by
  induction g with
  | nil => rfl
  | cons a g ih =>
    rw [List.cons_append, List.dropWhile_cons, if_pos (hg a (List.mem_cons_self ..))]
    exact ih (fun b hb => hg b (List.mem_cons_of_mem _ hb))

theorem dropWhile_stay {p : Byte → Bool} {c : Byte} {s : List Byte} (h : p c = false) : (c :: s).dropWhile p = c :: s := by
  rw [List.dropWhile_cons, if_neg (by simp [h])]

theorem fp_gap_lit {g : List Byte} (hg : ∀ b ∈ g, isFp b = false) (l : Spec.Lit) (hl : l.Ok) {c : Byte} (hc : isFp c = false) (r : List Byte) :
    fpV ops (g ++ (l.text ++ c :: r)) = evalLit ops l ∧ fpR ops (g ++ (l.text ++ c :: r)) = c :: r := by
  have hd : (g ++ (l.text ++ c :: r)).dropWhile (fun b => !isFp b) = l.text ++ c :: r := by
    rw [dropWhile_gap (fun b hb => by simp [hg b hb])]
    obtain ⟨a, s, h1, h2⟩ := lit_head l hl (c :: r)
    rw [h1]
    exact dropWhile_stay (by simp [h2])
  have v := View.full ⟨l.text ++ c :: r, 1⟩
  have h1 := readFpN_eq ops (endB_file (μ := ⟨l.text ++ c :: r, 1⟩) (by simp)) ((l.text ++ c :: r).length + 2) _ (by simp only; omega) v
  have h2 := readFpN_lit ops ((l.text ++ c :: r).length) l hl (c :: r) v ⟨fun b s h => by cases h; exact hc, at_cons v.append hc⟩
  rw [h2] at h1
  injection h1 with h1
  injection h1 with h1 h3
  have hlen : ((fpL ops ((l.text ++ c :: r).length + 2) (l.text ++ c :: r)).2) = c :: r := by
    obtain ⟨a, ha⟩ := fpL_suffix ops ((l.text ++ c :: r).length + 2) (l.text ++ c :: r)
    have hsub : (fpL ops ((l.text ++ c :: r).length + 2) (l.text ++ c :: r)).2.length = (c :: r).length := by
      have hd := congrArg Reader.d h3
      have h4 := (fpL_suffix ops ((l.text ++ c :: r).length + 2) (l.text ++ c :: r)).length_le
      simp only [rd, List.length_append, List.length_cons] at hd h4 ⊢
      omega
    exact List.append_inj_right' ha hsub
  unfold fpV fpR
  rw [hd, hlen]
  exact ⟨h1.symm, dropWhile_stay hc⟩

theorem fp_minus {g : List Byte} (hg : ∀ b ∈ g, isFp b = false) {c : Byte} (hc : isFp c = false) (r : List Byte) :
    fpV ops (g ++ (45 :: c :: r)) = ops.neg ops.zero ∧ fpR ops (g ++ (45 :: c :: r)) = c :: r := by
  have hd : (g ++ (45 :: c :: r)).dropWhile (fun b => !isFp b) = 45 :: c :: r := by
    rw [dropWhile_gap (fun b hb => by simp [hg b hb])]
    exact dropWhile_stay (by decide)
  obtain ⟨h1, h2, h3, h4, h5, h6⟩ := isFp_false hc
  have : ∀ n, fpL ops (n + 1) (45 :: c :: r) = (ops.neg ops.zero, c :: r) := by
    intro n
    rw [fpL]
    have h0 : (45 :: c :: r).dropWhile (fun b => !isFp b) = 45 :: c :: r := dropWhile_stay (by decide)
    simp [h0, fpSignL, h1, fpFracL, h4, h5, h6, fpDigits]
  unfold fpV fpR
  rw [hd, this]
  exact ⟨rfl, dropWhile_stay hc⟩

theorem fp_none {g : List Byte} (hg : ∀ b ∈ g, isFp b = false) : fpV ops g = ops.zero ∧ fpR ops g = [] := by
  have hd : g.dropWhile (fun b => !isFp b) = [] := by
    have := dropWhile_gap (p := fun b => !isFp b) (g := g) (s := []) (fun b hb => by simp [hg b hb])
    simpa using this
  unfold fpV fpR
  rw [hd]
  simp [fpL, fpSignL, fpFracL, fpDigits]

/-! ## Lines -/

/-- `x y w` -/
def wl (txt : Nat → List Byte) (e : Nat × Nat × Nat) : List Byte := Spec.showNat e.1 ++ 32 :: (Spec.showNat e.2.1 ++ 32 :: txt e.2.2)

theorem atNum_show (x : Nat) (r : List Byte) : AtNum (Spec.showNat x ++ r) := by
  intro c t h
  obtain ⟨a, s, hs⟩ := List.exists_cons_of_ne_nil (showNat_ne_nil x)
  rw [hs] at h
  injection h with h _
  rw [← h]; exact showNat_digits x a (by rw [hs]; simp)

theorem drop_show (x : Nat) {c : Byte} (hc : isDigit c = false) (r : List Byte) : (Spec.showNat x ++ c :: r).dropWhile isDigit = c :: r := by
  rw [dropWhile_gap (showNat_digits x)]; exact dropWhile_stay hc

theorem take_show (x : Nat) {c : Byte} (hc : isDigit c = false) (r : List Byte) : (Spec.showNat x ++ c :: r).takeWhile isDigit = Spec.showNat x := by
  rw [List.takeWhile_append_of_pos (showNat_digits x), List.takeWhile_cons, if_neg (by simp [hc]), List.append_nil]

theorem firstInt_atNum {s : List Byte} (h : AtNum s) : firstIntL s = s := by
  cases s with
  | nil => rfl
  | cons c t =>
    have hc := h c t rfl
    simp [toStop, isDigit_not_com hc, hc]

theorem line_facts (lw x y : Nat) (r : List Byte) :
    numAt lw (Spec.showNat x ++ 32 :: (Spec.showNat y ++ 32 :: r)) = x % 2 ^ lw ∧
    nextIntL (Spec.showNat x ++ 32 :: (Spec.showNat y ++ 32 :: r)) = Spec.showNat y ++ 32 :: r ∧
    nextIntL (afterNum (Spec.showNat x ++ 32 :: (Spec.showNat y ++ 32 :: r))) = Spec.showNat y ++ 32 :: r ∧
    numAt lw (Spec.showNat y ++ 32 :: r) = y % 2 ^ lw ∧ preW (Spec.showNat x ++ 32 :: (Spec.showNat y ++ 32 :: r)) = 32 :: r := by
  have n32 : isDigit (32 : Byte) = false := by decide
  have hnum : ∀ (x : Nat) (r : List Byte), numAt lw (Spec.showNat x ++ 32 :: r) = x % 2 ^ lw := by
    intro x r
    unfold numAt
    rw [(atNum_show x _).toDigit, take_show x n32, showNat_value]
  have hnext : ∀ (x : Nat) (r : List Byte), nextIntL (Spec.showNat x ++ 32 :: r) = firstIntL r := by
    intro x r
    unfold nextIntL
    rw [drop_show x n32]
    simp only [firstIntL, toStop, n32, show isCom (32 : Byte) = false by decide, Bool.false_eq_true, if_false]
  have h1 := hnext x (Spec.showNat y ++ 32 :: r)
  rw [firstInt_atNum (atNum_show y _)] at h1
  have h2 := nextInt_afterNum (atNum_show x (32 :: (Spec.showNat y ++ 32 :: r)))
  rw [h1] at h2
  refine ⟨hnum _ _, h1, h2, hnum _ _, ?_⟩
  unfold preW
  rw [h2]
  unfold afterNum
  rw [(atNum_show y _).toDigit, drop_show y n32]

/-- What is known of the text of a weight: a word that does not look like a number; or a literal, or a minus sign and a word. -/
def WgtText (word : Nat → Prop) (q : Nat → V) (txt : Nat → List Byte) (v : Nat) : Prop :=
  nl ∉ txt v ∧ (word v → ∀ b ∈ txt v, isFp b = false) ∧
  (¬ word v → (∃ l : Spec.Lit, l.Ok ∧ l.text = txt v ∧ q v = evalLit ops l) ∨
    ∃ c w, txt v = 45 :: c :: w ∧ isFp c = false ∧ q v = ops.neg ops.zero)

/-- What pass 2 of one thread reads. -/
def rer (word : Nat → Prop) [DecidablePred word] (q lab : Nat → V) : List (Nat × Nat × Nat) → List (Nat × Nat × V)
  | [] => []
  | [(x, y, v)] => if word v then [] else [(x, y, q v)]
  | (x, y, v) :: (x', y', v') :: es =>
    if word v then (x, y, lab x') :: rer word q lab es else (x, y, q v) :: rer word q lab ((x', y', v') :: es)

variable {word : Nat → Prop} [DecidablePred word] {q lab : Nat → V} {txt : Nat → List Byte}

theorem rer_le : ∀ b : List (Nat × Nat × Nat), (rer word q lab b).length ≤ b.length
  | [] => by simp [rer]
  | [(x, y, v)] => by rw [rer]; split <;> simp
  | (x, y, v) :: (x', y', v') :: es => by
    rw [rer]
    split
    · have := rer_le es; simp only [List.length_cons]; omega
    · have := rer_le ((x', y', v') :: es); simp only [List.length_cons] at this ⊢; omega

theorem isFp_nl' : isFp nl = false := by decide
theorem isFp_blank : isFp (32 : Byte) = false := by decide

theorem atNum_lines (b : List (Nat × Nat × Nat)) : AtNum (text (b.map (wl txt))) := by
  cases b with
  | nil => intro c t h; cases h
  | cons e b =>
    rw [List.map_cons, text_cons, wl, List.append_assoc]
    exact atNum_show _ _

theorem rer_cons {x y v : Nat} (b : List (Nat × Nat × Nat)) (h : ¬ word v) : rer word q lab ((x, y, v) :: b) = (x, y, q v) :: rer word q lab b := by
  cases b with
  | nil => simp [rer, h]
  | cons e b => rw [rer, if_neg h]

/-- A thread with the lines of the entries `b`. -/
theorem scan_block {lw : Nat} : ∀ (n : Nat) (b : List (Nat × Nat × Nat)),
    (∀ e ∈ b, e.1 < 2 ^ lw ∧ e.2.1 < 2 ^ lw ∧ fpDigits ops (Spec.showNat e.1) = lab e.1 ∧ WgtText ops word q txt e.2.2) → (text (b.map (wl txt))).length ≤ n →
    cScan n (text (b.map (wl txt))) = b.length ∧ (wScan lw (fpV ops) (fpR ops) n (text (b.map (wl txt)))).1 = rer word q lab b ∧
    ((wScan lw (fpV ops) (fpR ops) n (text (b.map (wl txt)))).2 = none ∨ (rer word q lab b).length < b.length) := by
  intro n
  induction n with
  | zero =>
    intro b hb hn
    cases b with
    | nil => simp [text, cScan, wScan, rer]
    | cons e b => rw [List.map_cons, text_cons] at hn; simp at hn
  | succ n ih =>
    intro b hb hn
    rcases b with _ | ⟨⟨x, y, v⟩, b⟩
    · simp [text, cScan, wScan, rer]
    obtain ⟨hx, hy, _, hnl, hword, hlit⟩ := hb _ (List.mem_cons_self ..)
    simp only at hx hy hnl hword hlit
    have hb' : ∀ e ∈ b, e.1 < 2 ^ lw ∧ e.2.1 < 2 ^ lw ∧ fpDigits ops (Spec.showNat e.1) = lab e.1 ∧ WgtText ops word q txt e.2.2 :=
      fun e he => hb e (List.mem_cons_of_mem _ he)
    have hs : text (((x, y, v) :: b).map (wl txt)) = Spec.showNat x ++ 32 :: (Spec.showNat y ++ 32 :: (txt v ++ nl :: text (b.map (wl txt)))) := by
      rw [List.map_cons, text_cons]; simp [wl]
    have hR := firstInt_atNum (atNum_lines (txt := txt) b)
    rw [hs] at hn ⊢
    have hlen : (text (b.map (wl txt))).length ≤ n := by simp only [List.length_append, List.length_cons] at hn; omega
    obtain ⟨f1, f2, f3, f4, f5⟩ := line_facts lw x y (txt v ++ nl :: text (b.map (wl txt)))
    have hne : Spec.showNat x ++ 32 :: (Spec.showNat y ++ 32 :: (txt v ++ nl :: text (b.map (wl txt)))) ≠ [] := by simp
    have nl32 : nl ≠ (32 : Byte) := by decide
    have hcount : nextLineL (Spec.showNat y ++ 32 :: (txt v ++ nl :: text (b.map (wl txt)))) = text (b.map (wl txt)) := by
      have := nextLineL_line (text (b.map (wl txt))) (u := Spec.showNat y ++ 32 :: txt v) (by
        simp only [List.mem_append, List.mem_cons, not_or]
        exact ⟨showNat_noNl y, nl32, hnl⟩)
      rw [hR] at this
      simpa using this
    have hc : cScan (n+1) (Spec.showNat x ++ 32 :: (Spec.showNat y ++ 32 :: (txt v ++ nl :: text (b.map (wl txt))))) = ((x, y, v) :: b).length := by
      rw [cScan, if_neg hne, f2, if_neg (by simp), hcount, (ih b hb' hlen).1]; rfl
    refine ⟨hc, ?_⟩
    rw [wScan, if_neg hne, f1, f3, f4, f5, Nat.mod_eq_of_lt hx, Nat.mod_eq_of_lt hy]
    by_cases hw : word v
    · have hg : ∀ c ∈ 32 :: (txt v ++ [nl]), isFp c = false := by
        intro c hc
        simp only [List.mem_cons, List.mem_append, List.mem_nil_iff, or_false] at hc
        rcases hc with rfl | hc | rfl
        · exact isFp_blank
        · exact hword hw c hc
        · exact isFp_nl'
      rcases b with _ | ⟨⟨x', y', v'⟩, b'⟩
      · obtain ⟨g1, g2⟩ := fp_none ops hg
        have : (32 :: (txt v ++ nl :: text (([] : List (Nat × Nat × Nat)).map (wl txt)))) = 32 :: (txt v ++ [nl]) := rfl
        rw [this, g2, if_pos rfl, rer, if_pos hw]
        exact ⟨rfl, .inr (by simp)⟩
      · obtain ⟨_, _, h3, hnl', _⟩ := hb' _ (List.mem_cons_self ..)
        simp only at h3 hnl'
        have hs' : text (((x', y', v') :: b').map (wl txt)) = Spec.showNat x' ++ 32 :: (Spec.showNat y' ++ 32 :: (txt v' ++ nl :: text (b'.map (wl txt)))) := by
          rw [List.map_cons, text_cons]; simp [wl]
        have hl : (⟨none, Spec.showNat x', none, none⟩ : Spec.Lit).Ok := by
          exact ⟨showNat_allDigit x', (fun f h => by simp at h), .inl (showNat_ne_nil x'), (fun _ _ _ h => by simp at h)⟩
        obtain ⟨g1, g2⟩ := fp_gap_lit ops hg _ hl isFp_blank (Spec.showNat y' ++ 32 :: (txt v' ++ nl :: text (b'.map (wl txt))))
        have ht : (⟨none, Spec.showNat x', none, none⟩ : Spec.Lit).text = Spec.showNat x' := by
          simp [Spec.Lit.text, Spec.Lit.fracText, Spec.Lit.expText, Spec.Sign.text]
        have he : evalLit ops (⟨none, Spec.showNat x', none, none⟩ : Spec.Lit) = fpDigits ops (Spec.showNat x') := rfl
        have hform : (32 :: (txt v ++ nl :: text (((x', y', v') :: b').map (wl txt)))) = (32 :: (txt v ++ [nl])) ++ ((⟨none, Spec.showNat x', none, none⟩ : Spec.Lit).text ++ 32 ::
            (Spec.showNat y' ++ 32 :: (txt v' ++ nl :: text (b'.map (wl txt))))) := by
          rw [hs', ht]; simp
        have hlen' : (text (b'.map (wl txt))).length ≤ n := by rw [hs'] at hlen; simp only [List.length_append, List.length_cons] at hlen; omega
        have hnext : nextLineL (32 :: (Spec.showNat y' ++ 32 :: (txt v' ++ nl :: text (b'.map (wl txt))))) = text (b'.map (wl txt)) := by
          have := nextLineL_line (text (b'.map (wl txt))) (u := 32 :: (Spec.showNat y' ++ 32 :: txt v')) (by
            simp only [List.mem_append, List.mem_cons, not_or]
            exact ⟨nl32, showNat_noNl y', nl32, hnl'⟩)
          rw [firstInt_atNum (atNum_lines (txt := txt) b')] at this
          simpa using this
        rw [hform, g1, g2, he, h3, if_neg (by simp), hnext, rer, if_pos hw]
        obtain ⟨_, i2, _⟩ := ih b' (fun e he => hb' e (List.mem_cons_of_mem _ he)) hlen'
        refine ⟨by rw [i2], .inr ?_⟩
        have := rer_le (word := word) (q := q) (lab := lab) b'
        simp only [List.length_cons]
        omega
    · obtain ⟨_, i2, i3⟩ := ih b hb' hlen
      have hread : ∃ u, nl ∉ u ∧ fpV ops (32 :: (txt v ++ nl :: text (b.map (wl txt)))) = q v ∧ fpR ops (32 :: (txt v ++ nl :: text (b.map (wl txt)))) = u ++ nl :: text (b.map (wl txt)) := by
        have hg : ∀ c ∈ [(32 : Byte)], isFp c = false := by
          intro c hc; simp only [List.mem_singleton] at hc; rw [hc]; exact isFp_blank
        rcases hlit hw with ⟨l, l1, l2, l3⟩ | ⟨c, w, h1, h2, h3⟩
        · obtain ⟨g1, g2⟩ := fp_gap_lit ops hg l l1 isFp_nl' (text (b.map (wl txt)))
          rw [l2] at g1 g2
          exact ⟨[], by simp, g1.trans l3.symm, g2⟩
        · obtain ⟨g1, g2⟩ := fp_minus ops hg h2 (w ++ nl :: text (b.map (wl txt)))
          rw [h1]
          refine ⟨c :: w, ?_, g1.trans h3.symm, g2⟩
          rw [h1] at hnl
          intro h; exact hnl (List.mem_cons_of_mem _ h)
      obtain ⟨u, hu, g1, g2⟩ := hread
      rw [g1, g2, if_neg (by simp), nextLineL_line _ hu, hR, rer_cons b hw, i2]
      refine ⟨rfl, i3.imp id (fun h => ?_)⟩
      simp only [List.length_cons]; omega

end Pigo
