import Verif.Model.Stb
import Verif.Spec.Stb
import Verif.Lemmas.Ascii
import Mathlib.Tactic.Ring
import Mathlib.Tactic.Linarith
import Mathlib.Tactic.NormNum

/-!
# Printing floating point numbers: digits
-/

namespace Pigo.Stb

theorem powten_eq {k : Nat} (h : k < 20) : powten k = .ok (10 ^ k) := by
  have : ∀ k < 20, powten k = .ok (10 ^ k) := by decide
  exact this k h

/-- The digit `d`. -/
abbrev dig (d : Nat) : Byte := UInt8.ofNat (d + 48)

theorem digitPair_eq (n : Nat) : digitPair n = [dig (n / 10 % 10), dig (n % 10)] := by
  have : ∀ k < 100, (pairTable.drop (k * 2)).take 2 = [dig (k / 10), dig (k % 10)] := by decide +kernel
  have h := this (n % 100) (Nat.mod_lt _ (by decide))
  unfold digitPair
  rw [h]
  have h1 : n % 100 / 10 = n / 10 % 10 := by omega
  have h2 : n % 100 % 10 = n % 10 := by omega
  rw [h1, h2]

/-- The digits of `n`; none for 0. -/
def digs (n : Nat) : List Byte := if n = 0 then [] else Spec.showNat n

/-- The last `k` digits of `n`. -/
def digsPad : Nat → Nat → List Byte
  | 0, _ => []
  | k+1, n => digsPad k (n / 10) ++ [dig (n % 10)]

theorem digs_rec {n : Nat} (h : n ≠ 0) : digs n = digs (n / 10) ++ [dig (n % 10)] := by
  unfold digs
  rw [if_neg h, showNat_rec]
  split <;> simp

theorem digsPad_length (k n : Nat) : (digsPad k n).length = k := by
  induction k generalizing n with
  | zero => rfl
  | succ k ih => simp [digsPad, ih]

theorem digsPad_mod (k n : Nat) : digsPad k (n % 10 ^ k) = digsPad k n := by
  induction k generalizing n with
  | zero => rfl
  | succ k ih =>
    rw [digsPad, digsPad, ← ih (n / 10), ← ih (n % 10 ^ (k+1) / 10)]
    have h1 : n % 10 ^ (k+1) / 10 % 10 ^ k = n / 10 % 10 ^ k := by
      rw [Nat.pow_succ', Nat.mod_mul_right_div_self, Nat.mod_mod]
    have h2 : n % 10 ^ (k+1) % 10 = n % 10 := by
      rw [Nat.pow_succ', Nat.mod_mul_right_mod]
    rw [h1, h2]

theorem digs_split (k : Nat) : ∀ n, 10 ^ k ≤ n → digs n = digs (n / 10 ^ k) ++ digsPad k n := by
  induction k with
  | zero => intro n _; simp [digsPad]
  | succ k ih =>
    intro n h
    have h0 : n ≠ 0 := by have := Nat.pow_pos (n := k+1) (show 0 < 10 by decide); omega
    have h1 : 10 ^ k ≤ n / 10 := by rw [Nat.le_div_iff_mul_le (by decide), ← Nat.pow_succ]; exact h
    rw [digs_rec h0, ih _ h1, digsPad, Nat.div_div_eq_div_mul, ← Nat.pow_succ', List.append_assoc]

theorem digsPad_digs : ∀ (k n : Nat), n < 10 ^ k → (digs n).length ≤ k ∧ digsPad k n = List.replicate (k - (digs n).length) 48 ++ digs n := by
  intro k
  induction k with
  | zero => intro n h; have : n = 0 := by simpa using h
            subst this; exact ⟨Nat.le_refl _, rfl⟩
  | succ k ih =>
    intro n h
    obtain ⟨h1, h2⟩ := ih (n / 10) (by rw [Nat.div_lt_iff_lt_mul (by decide), ← Nat.pow_succ]; exact h)
    by_cases h0 : n = 0
    · subst h0
      have e : digs 0 = [] := rfl
      refine ⟨by rw [e]; exact Nat.zero_le _, ?_⟩
      rw [digsPad, show 0 / 10 = 0 from rfl] at *
      rw [h2, e]
      simp only [List.length_nil, List.append_nil, Nat.sub_zero]
      exact (List.replicate_succ' ..).symm
    · rw [digs_rec h0, digsPad, h2]
      simp only [List.length_append, List.length_singleton]
      refine ⟨by omega, ?_⟩
      rw [List.append_assoc, show k + 1 - ((digs (n/10)).length + 1) = k - (digs (n/10)).length by omega]

theorem digs_length {k n : Nat} (h : 10 ^ k ≤ n) (h' : n < 10 ^ (k+1)) : (digs n).length = k + 1 := by
  have h1 := (digsPad_digs (k+1) n h').1
  rw [digs_split k n h, List.length_append, digsPad_length] at h1 ⊢
  have : 0 < n / 10 ^ k := Nat.div_pos h (Nat.pow_pos (by decide))
  have : (digs (n / 10 ^ k)).length ≠ 0 := by
    rw [digs_rec (by omega)]; simp
  omega

theorem digs_mul_pow (B z : Nat) (h : B ≠ 0) : digs (B * 10 ^ z) = digs B ++ List.replicate z 48 := by
  have hB : 1 ≤ B := by omega
  have hp := Nat.pow_pos (n := z) (show 0 < 10 by decide)
  rw [digs_split z _ (Nat.le_mul_of_pos_left _ (by omega)), Nat.mul_div_cancel _ hp]
  congr 1
  rw [← digsPad_mod, Nat.mul_mod_left, (digsPad_digs z 0 hp).2]
  simp [digs]

theorem dig_inj {a : Nat} (h : a < 10) : dig a = 48 ↔ a = 0 := by
  have : ∀ a < 10, dig a = 48 ↔ a = 0 := by decide
  exact this a h

theorem digs_head {n : Nat} (h : n ≠ 0) : ∃ c t, digs n = c :: t ∧ c ≠ 48 := by
  induction n using Nat.strongRecOn with
  | _ n ih =>
    rw [digs_rec h]
    by_cases h1 : n / 10 = 0
    · rw [h1]
      refine ⟨_, [], rfl, ?_⟩
      rw [Ne, dig_inj (Nat.mod_lt _ (by decide))]; omega
    · obtain ⟨c, t, e, hc⟩ := ih (n / 10) (by omega) h1
      exact ⟨c, _, by rw [e]; rfl, hc⟩

theorem pairLoop_eq : ∀ (f n : Nat) (out : List Byte), n < f → ∃ j, pairLoop f n out = digsPad (2 * j) n ++ out ∧
    n < 100 ^ j ∧ (∀ i, n < 100 ^ i → j ≤ i) := by
  intro f
  induction f with
  | zero => intro n _ h; omega
  | succ f ih =>
    intro n out h
    rw [pairLoop]
    by_cases h0 : n = 0
    · subst h0; exact ⟨0, rfl, by decide, fun _ _ => Nat.zero_le _⟩
    · rw [if_neg h0]
      obtain ⟨j, h1, h2, h3⟩ := ih (n / 100) (digitPair n ++ out) (by omega)
      refine ⟨j + 1, ?_, ?_, ?_⟩
      · rw [h1, digitPair_eq, show 2 * (j + 1) = 2 * j + 1 + 1 by omega, digsPad, digsPad, Nat.div_div_eq_div_mul]
        simp
      · rw [Nat.pow_succ]; exact (Nat.div_lt_iff_lt_mul (by decide)).mp h2
      · intro i hi
        cases i with
        | zero => simp at hi; omega
        | succ i =>
          have := h3 i ((Nat.div_lt_iff_lt_mul (by decide)).mpr (by rwa [Nat.pow_succ] at hi))
          omega

theorem zeroLoop_eq (k : Nat) (out : List Byte) : zeroLoop k out = List.replicate k 48 ++ out := by
  induction k generalizing out with
  | zero => rfl
  | succ k ih => rw [zeroLoop, ih, List.replicate_succ']; simp

theorem digsPad_more {k n m : Nat} (h : n < 10 ^ k) (hm : k ≤ m) : List.replicate (m - k) 48 ++ digsPad k n = digsPad m n := by
  have h' : n < 10 ^ m := Nat.lt_of_lt_of_le h (Nat.pow_le_pow_right (by decide) hm)
  obtain ⟨h1, h2⟩ := digsPad_digs k n h
  rw [h2, (digsPad_digs m n h').2, ← List.append_assoc, ← List.replicate_add]
  congr 2; omega

theorem digitLoop_eq : ∀ (f bits : Nat) (out : List Byte), bits < f → (bits = 0 → out = []) →
    digitLoop f bits out = .ok (digs bits ++ out) := by
  intro f
  induction f with
  | zero => intro b _ h; omega
  | succ f ih =>
    intro bits out h hb
    rw [digitLoop]
    by_cases h8 : bits ≥ 100000000
    · simp only [h8, if_true]
      have hne : bits / 100000000 ≠ 0 := by omega
      rw [if_neg hne]
      have hn : bits % 100000000 < 10 ^ 8 := Nat.mod_lt _ (by decide)
      obtain ⟨j, e, h1, h2⟩ := pairLoop_eq (bits % 100000000 + 1) (bits % 100000000) out (Nat.lt_succ_self _)
      have hj : j ≤ 4 := h2 4 (by simpa using hn)
      rw [e, if_neg (by rw [List.length_append, digsPad_length]; omega), zeroLoop_eq,
        ih _ _ (by omega) (fun h => absurd h hne)]
      have hm : List.replicate (8 - 2 * j) 48 ++ digsPad (2 * j) (bits % 100000000) = digsPad 8 (bits % 100000000) :=
        digsPad_more (by rw [Nat.pow_mul]; exact h1) (by omega)
      rw [List.length_append, digsPad_length,
        show out.length + 8 - (2 * j + out.length) = 8 - 2 * j by omega, ← List.append_assoc (List.replicate _ _),
        hm, ← List.append_assoc, digs_split 8 bits h8]
      rw [show (100000000 : Nat) = 10 ^ 8 from rfl, digsPad_mod]
    · simp only [h8, if_false, if_true]
      obtain ⟨j, e, h1, h2⟩ := pairLoop_eq (bits + 1) bits out (Nat.lt_succ_self _)
      rw [e]
      by_cases h0 : bits = 0
      · have : j = 0 := Nat.le_zero.mp (h2 0 (by rw [h0]; decide))
        subst this; subst h0; rw [hb rfl]; rfl
      · have hj : j ≠ 0 := by rintro rfl; simp at h1; omega
        obtain ⟨g1, g2⟩ := digsPad_digs (2 * j) bits (by rw [Nat.pow_mul]; exact h1)
        have g3 : 2 * j ≤ (digs bits).length + 1 := by
          by_contra hc
          obtain ⟨i, rfl⟩ : ∃ i, j = i + 1 := ⟨j - 1, by omega⟩
          have : 100 ^ i ≤ bits := by
            by_contra hi
            have := h2 i (by omega); omega
          rw [digs_split (2 * i) bits (by rw [Nat.pow_mul]; exact this), List.length_append, digsPad_length] at hc
          have hpos : bits / 10 ^ (2 * i) ≠ 0 := by
            rw [Nat.pow_mul]
            have := Nat.div_pos this (Nat.pow_pos (n := i) (show 0 < 100 by decide))
            exact Nat.pos_iff_ne_zero.mp this
          obtain ⟨c, t, e, _⟩ := digs_head hpos
          rw [e] at hc
          simp only [List.length_cons] at hc
          omega
        obtain ⟨c, t, ec, hc⟩ := digs_head h0
        rw [g2]
        by_cases hg : 2 * j = (digs bits).length
        · rw [hg, Nat.sub_self, List.replicate_zero, List.nil_append, ec]
          simp only [List.cons_append, if_neg hc]
        · rw [show 2 * j - (digs bits).length = 1 by omega]
          simp only [List.replicate_one, List.nil_append, List.cons_append, if_true]

theorem toDigits_eq {bits : Nat} (h : bits < 10 ^ 60) : toDigits bits = .ok (digs bits) := by
  unfold toDigits
  rw [digitLoop_eq _ _ _ (Nat.lt_succ_self _) (fun _ => rfl), ok_bind, List.append_nil, if_neg]
  have := (digsPad_digs 60 bits h).1; omega

/-! ## trailing zeros -/

theorem killSmall_eq : ∀ (f n : Nat), n < f → n ≠ 0 → ∃ B z, killSmall f n = .ok B ∧ n = B * 10 ^ z ∧ B ≠ 0 := by
  intro f
  induction f with
  | zero => intro n h; omega
  | succ f ih =>
    intro n h h0
    rw [killSmall]
    split
    · obtain ⟨B, z, h1, h2, h3⟩ := ih (n / 1000) (by omega) (by omega)
      refine ⟨B, z + 3, h1, ?_, h3⟩
      have : n = n / 1000 * 1000 := by omega
      rw [this, h2, Nat.pow_add, Nat.mul_assoc]
    · exact ⟨n, 0, rfl, by simp, h0⟩

theorem killLarge_eq : ∀ (f n : Nat), n < f → n ≠ 0 → ∃ B z, killLarge f n = .ok B ∧ n = B * 10 ^ z ∧ B ≠ 0 := by
  intro f
  induction f with
  | zero => intro n h; omega
  | succ f ih =>
    intro n h h0
    rw [killLarge]
    split
    · rw [Nat.mod_eq_of_lt (by omega)]
      exact killSmall_eq _ _ (Nat.lt_succ_self _) h0
    · split
      · exact ⟨n, 0, rfl, by simp, h0⟩
      · obtain ⟨B, z, h1, h2, h3⟩ := ih (n / 1000) (by omega) (by omega)
        refine ⟨B, z + 3, h1, ?_, h3⟩
        have : n = n / 1000 * 1000 := by omega
        rw [this, h2, Nat.pow_add, Nat.mul_assoc]

/-- The digits that are kept: those of `bits` without some of the zeros at the end. -/
theorem kill_digits {bits : Nat} (h : bits < 10 ^ 60) : ∃ ds z, (killZeros bits >>= toDigits) = .ok ds ∧
    digs bits = ds ++ List.replicate z 48 ∧ (bits ≠ 0 → ds ≠ []) := by
  unfold killZeros
  by_cases h0 : bits = 0
  · subst h0; exact ⟨[], 0, by decide, rfl, fun h => absurd rfl h⟩
  · rw [if_pos h0]
    obtain ⟨B, z, h1, h2, h3⟩ := killLarge_eq (bits + 1) bits (Nat.lt_succ_self _) h0
    have : B ≤ bits := by rw [h2]; exact Nat.le_mul_of_pos_right _ (Nat.pow_pos (by decide))
    refine ⟨digs B, z, by rw [h1, ok_bind, toDigits_eq (by omega)], by rw [h2, digs_mul_pow B z h3], fun _ => ?_⟩
    obtain ⟨c, t, e, _⟩ := digs_head h3
    rw [e]; simp

/-! ## rounding -/

theorem dgLoop_eq (bits L : Nat) (hL : L < 20) (h1 : bits < 10 ^ L) : ∀ (f dg : Nat), dg ≤ L → L - dg < f →
    (∀ k, dg ≤ k → k < L → 10 ^ k ≤ bits) → dgLoop bits f dg = .ok (some L) := by
  intro f
  induction f with
  | zero => intro dg _ h; omega
  | succ f ih =>
    intro dg hd hf hk
    rw [dgLoop, powten_eq (by omega), ok_bind]
    by_cases h : dg = L
    · subst h; rw [if_neg (by omega)]
    · rw [if_pos (hk dg (Nat.le_refl _) (by omega)), if_neg (by omega)]
      exact ih (dg + 1) (by omega) (by omega) (fun k h1 h2 => hk k (by omega) h2)

/-- `bits · 10^(t0 - 12)`, rounded half up. -/
def nearest6 (bits : Nat) (t0 : Int) : Nat :=
  if 12 ≤ t0 then bits * 10 ^ (t0 - 12).toNat else (bits + 10 ^ (12 - t0).toNat / 2) / 10 ^ (12 - t0).toNat

theorem roundStep_eq {bits : Nat} {t0 : Int} (h1 : 10 ^ 17 ≤ bits) (h2 : bits < 10 ^ 19) (h3 : -400 ≤ t0) (h4 : t0 ≤ 400) :
    ∃ B t', roundStep bits (if bits ≥ 1000000000000000000 then t0 + 1 else t0) = .ok (B, t') ∧ B < 10 ^ 19 ∧ t' ≤ 402 ∧
      ((nearest6 bits t0 = 0 ∧ t' ≤ -6) ∨
       (nearest6 bits t0 ≠ 0 ∧ B ≠ 0 ∧ (∃ z, nearest6 bits t0 = B * 10 ^ z) ∧ ((digs (nearest6 bits t0)).length : Int) = t' + 6)) := by
  obtain ⟨L, hL, g1, g2, ht⟩ : ∃ L : Nat, (L = 18 ∨ L = 19) ∧ 10 ^ (L - 1) ≤ bits ∧ bits < 10 ^ L ∧
      (if bits ≥ 1000000000000000000 then t0 + 1 else t0) = t0 + L - 18 := by
    split
    · exact ⟨19, .inr rfl, by omega, h2, by omega⟩
    · exact ⟨18, .inl rfl, h1, by omega, by omega⟩
  rw [ht]
  have hdg : dgLoop bits 20 10 = .ok (some L) := by
    apply dgLoop_eq bits L (by omega) g2 20 10 (by omega) (by omega)
    intro k _ hk
    exact Nat.le_trans (Nat.pow_le_pow_right (by decide) (by omega)) g1
  unfold roundStep
  by_cases hneg : t0 + L - 18 < -6
  · -- below the sixth decimal
    have hfd : ¬ ((t0 + L - 18 + 6) % 2 ^ 32).toNat < 24 := by omega
    simp only [hfd, if_false]
    refine ⟨bits, t0 + L - 18, rfl, h2, by omega, .inl ⟨?_, by omega⟩⟩
    unfold nearest6
    rw [if_neg (by omega)]
    apply Nat.div_eq_of_lt
    have hle : 10 ^ (L + 1) ≤ 10 ^ (12 - t0).toNat := Nat.pow_le_pow_right (by decide) (by omega)
    have : 10 ^ L * 10 ≤ 10 ^ (12 - t0).toNat := by rw [← Nat.pow_succ]; exact hle
    omega
  · have hfd : ((t0 + L - 18 + 6) % 2 ^ 32).toNat = (t0 + L - 12).toNat := by omega
    simp only [hfd]
    by_cases ht12 : 12 ≤ t0
    · -- no rounding
      refine ⟨bits, t0 + L - 18, ?_, h2, by omega, .inr ⟨?_, by omega, ⟨(t0 - 12).toNat, ?_⟩, ?_⟩⟩
      · split
        · rw [powten_eq (by decide), ok_bind, if_pos (by omega), hdg, ok_bind]
          simp only
          rw [if_neg (by omega)]
        · rfl
      · unfold nearest6
        rw [if_pos ht12]
        have := Nat.pow_pos (n := (t0 - 12).toNat) (show 0 < 10 by decide)
        exact Nat.mul_ne_zero (by omega) (by omega)
      · unfold nearest6; rw [if_pos ht12]
      · unfold nearest6; rw [if_pos ht12, digs_mul_pow _ _ (by omega), List.length_append, List.length_replicate]
        have : (digs bits).length = L := by
          have := digs_length (k := L - 1) (n := bits) g1 (by rw [show L - 1 + 1 = L by omega]; exact g2)
          omega
        omega
    · -- rounding
      have hlt : (t0 + L - 12).toNat < 24 := by omega
      have he : L - (t0 + L - 12).toNat = (12 - t0).toNat := by omega
      rw [if_pos hlt, powten_eq (by decide), ok_bind, if_pos (by omega), hdg, ok_bind]
      simp only
      rw [if_pos (by omega), if_neg (by omega), he, powten_eq (by omega), ok_bind, powten_eq (by omega), ok_bind]
      have hN : nearest6 bits t0 = (bits + 10 ^ (12 - t0).toNat / 2) / 10 ^ (12 - t0).toNat := by
        unfold nearest6; rw [if_neg (by omega)]
      rw [hN]
      obtain ⟨e, hee⟩ : ∃ e, (12 - t0).toNat = e := ⟨_, rfl⟩
      rw [hee]
      obtain ⟨fd, hfe⟩ : ∃ fd, L = fd + e := ⟨L - e, by omega⟩
      have hr : 10 ^ e ≤ 10 ^ 19 := Nat.pow_le_pow_right (by decide) (by omega)
      have hr0 : 0 < 10 ^ e := Nat.pow_pos (by decide)
      have hb : (bits + 10 ^ e / 2) % 2 ^ 64 = bits + 10 ^ e / 2 := by
        apply Nat.mod_eq_of_lt
        have : (10 : Nat) ^ 19 + 10 ^ 19 / 2 < 2 ^ 64 := by decide
        omega
      rw [hb]
      have hrL : 10 ^ e ≤ 10 ^ L := Nat.pow_le_pow_right (by decide) (by omega)
      have hLL : 10 ^ L = 10 ^ fd * 10 ^ e := by rw [hfe, Nat.pow_add]
      refine ⟨_, _, rfl, ?_, ?_, ?_⟩
      · apply (Nat.div_lt_iff_lt_mul hr0).mpr
        have : 10 ^ 1 ≤ 10 ^ e := Nat.pow_le_pow_right (by decide) (by omega)
        have : 10 ^ 19 * 10 ^ 1 ≤ 10 ^ 19 * 10 ^ e := Nat.mul_le_mul_left _ this
        omega
      · split <;> omega
      · by_cases hc : bits + 10 ^ e / 2 ≥ 10 ^ L
        · rw [if_pos hc]
          have hge : 10 ^ fd ≤ (bits + 10 ^ e / 2) / 10 ^ e := by
            rw [Nat.le_div_iff_mul_le hr0, ← hLL]; exact hc
          have hlt' : (bits + 10 ^ e / 2) / 10 ^ e < 10 ^ (fd + 1) := by
            rw [Nat.div_lt_iff_lt_mul hr0, Nat.pow_succ, Nat.mul_right_comm, ← hLL]; omega
          have : 0 < 10 ^ fd := Nat.pow_pos (by decide)
          refine .inr ⟨by omega, by omega, ⟨0, by simp⟩, ?_⟩
          rw [digs_length hge hlt']; omega
        · rw [if_neg hc]
          have hlt' : (bits + 10 ^ e / 2) / 10 ^ e < 10 ^ fd := by
            rw [Nat.div_lt_iff_lt_mul hr0, ← hLL]; omega
          rcases Nat.eq_zero_or_pos fd with h0 | h0
          · subst h0
            exact .inl ⟨by simpa using hlt', by omega⟩
          · obtain ⟨g, rfl⟩ : ∃ g, fd = g + 1 := ⟨fd - 1, by omega⟩
            have hge : 10 ^ g ≤ (bits + 10 ^ e / 2) / 10 ^ e := by
              rw [Nat.le_div_iff_mul_le hr0, ← Nat.pow_add]
              rw [hfe, show g + 1 + e - 1 = g + e by omega] at g1
              omega
            have : 0 < 10 ^ g := Nat.pow_pos (by decide)
            refine .inr ⟨by omega, by omega, ⟨0, by simp⟩, ?_⟩
            rw [digs_length hge hlt']; omega

/-! ## layout -/

theorem fillQuads_eq (i : Nat) : fillQuads i = List.replicate i 48 := by
  induction i using Nat.strongRecOn with
  | _ i ih =>
    match i with
    | 0 => rfl
    | 1 => rfl
    | 2 => rfl
    | 3 => rfl
    | i+4 =>
      rw [fillQuads, ih i (by omega)]; simp [List.replicate_succ]

theorem fillHead_eq (i a : Nat) : (fillHead i a).1 ++ List.replicate (fillHead i a).2 48 = List.replicate i 48 := by
  induction i generalizing a with
  | zero => rfl
  | succ i ih =>
    rw [fillHead]
    split
    · rfl
    · simp only [List.cons_append, ih, List.replicate_succ]

theorem zeroFill_eq (a i : Nat) : zeroFill a i = List.replicate i 48 := by
  unfold zeroFill; rw [fillQuads_eq, fillHead_eq]

theorem copyQuads_eq : ∀ s, copyQuads s = s
  | a :: b :: c :: d :: t => by rw [copyQuads, copyQuads_eq t]
  | [] => rfl
  | [_] => rfl
  | [_, _] => rfl
  | [_, _, _] => rfl

theorem fixed6_zero : Spec.fixed6 0 = [48, 46] ++ List.replicate 6 48 := by decide

theorem layout_zero (a : Nat) (dp : Int) (ds : List Byte) (h : dp ≤ -6) :
    ∃ s tz, layout a dp ds = .ok (s, tz) ∧ s ++ List.replicate tz 48 = Spec.fixed6 0 ∧ tz ≤ 6 := by
  unfold layout
  rw [if_pos (by omega)]
  have hn : (if (-dp).toNat > 6 then 6 else (-dp).toNat) = 6 := by split <;> omega
  have hl : (if ds.length + 6 > 6 then 6 - 6 else ds.length) = 0 := by split <;> omega
  simp only [hn, hl]
  refine ⟨_, _, rfl, ?_, by omega⟩
  rw [zeroFill_eq, fixed6_zero]; simp

theorem layout_eq (a : Nat) (dp : Int) (ds : List Byte) (N z : Nat) (h0 : N ≠ 0) (hd : digs N = ds ++ List.replicate z 48)
    (hne : ds ≠ []) (hdp : ((digs N).length : Int) = dp + 6) :
    ∃ s tz, layout a dp ds = .ok (s, tz) ∧ s ++ List.replicate tz 48 = Spec.fixed6 N ∧ tz ≤ 6 := by
  have hS : Spec.showNat N = ds ++ List.replicate z 48 := by rw [← hd, digs, if_neg h0]
  have hlen : ds.length + z = (dp + 6).toNat := by
    rw [hd] at hdp; simp at hdp; omega
  have hl0 : 0 < ds.length := List.length_pos_iff.mpr hne
  have hpt : str "." = [46] := by decide
  unfold layout
  by_cases h : dp ≤ 0
  · rw [if_pos h]
    have hn : (if (-dp).toNat > 6 then 6 else (-dp).toNat) = (-dp).toNat := by split <;> omega
    have hl : (if ds.length + (-dp).toNat > 6 then 6 - (-dp).toNat else ds.length) = ds.length := by split <;> omega
    simp only [hn, hl]
    refine ⟨_, _, rfl, ?_, by omega⟩
    have h7 : Spec.atLeast7 N = 48 :: (List.replicate (-dp).toNat 48 ++ ds ++ List.replicate z 48) := by
      unfold Spec.atLeast7
      rw [hS, List.length_append, List.length_replicate, hlen, show 7 - (dp + 6).toNat = (-dp).toNat + 1 by omega,
        List.replicate_succ]
      simp
    unfold Spec.fixed6
    rw [h7, hpt]
    have e1 : (48 :: (List.replicate (-dp).toNat (48 : Byte) ++ ds ++ List.replicate z 48)).length - 6 = 1 := by
      simp only [List.length_cons, List.length_append, List.length_replicate]; omega
    rw [e1, zeroFill_eq, List.take_length]
    rw [show 6 - ((-dp).toNat + ds.length) = z by omega]
    simp
  · rw [if_neg h]
    have h7 : Spec.atLeast7 N = ds ++ List.replicate z 48 := by
      unfold Spec.atLeast7
      rw [hS, List.length_append, List.length_replicate, hlen, show 7 - (dp + 6).toNat = 0 by omega]
      rfl
    have e1 : (ds ++ List.replicate z (48 : Byte)).length - 6 = dp.toNat := by
      simp only [List.length_append, List.length_replicate]; omega
    unfold Spec.fixed6
    rw [h7, hpt, e1]
    by_cases hge : dp.toNat ≥ ds.length
    · rw [if_pos hge, if_neg (by omega)]
      refine ⟨_, _, rfl, ?_, by omega⟩
      have hz : (if ds.length < dp.toNat then zeroFill (a + ds.length) (dp.toNat - ds.length) else []) =
          List.replicate (dp.toNat - ds.length) 48 := by
        split
        · rw [zeroFill_eq]
        · rw [show dp.toNat - ds.length = 0 by omega]; rfl
      rw [hz, List.take_append, List.drop_append, List.take_of_length_le hge, List.drop_of_length_le hge,
        List.take_replicate, List.drop_replicate, show min (dp.toNat - ds.length) z = dp.toNat - ds.length by omega,
        show z - (dp.toNat - ds.length) = 6 by omega]
      rfl
    · rw [if_neg hge]
      have hl : (if ds.length - dp.toNat > 6 then 6 + dp.toNat else ds.length) = ds.length := by split <;> omega
      simp only [hl]
      refine ⟨_, _, rfl, ?_, by omega⟩
      rw [List.take_length, List.take_append, List.drop_append, show dp.toNat - ds.length = 0 by omega,
        show 6 - (ds.length - dp.toNat) = z by omega]
      simp

theorem fixed6_length (N : Nat) : (Spec.fixed6 N).length = max (Spec.showNat N).length 7 + 1 := by
  unfold Spec.fixed6
  have hpt : (str ".").length = 1 := by decide
  simp only [List.length_append, List.length_take, List.length_drop, hpt, Spec.atLeast7, List.length_replicate]
  omega

end Pigo.Stb
