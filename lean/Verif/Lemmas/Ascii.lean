import Verif.Model.Ascii
import Verif.Spec.Ascii
import Verif.Lemmas.Lines

/-!
# Facts about printed integers
-/

namespace Pigo

theorem showNat_eq (n : Nat) : Spec.showNat n = (Nat.toDigits 10 n).map (fun c => UInt8.ofNat c.toNat) := by
  unfold Spec.showNat str
  rw [Nat.toString_eq_repr, Nat.toList_repr]

theorem digitChar_byte {d : Nat} (h : d < 10) : UInt8.ofNat (Nat.digitChar d).toNat = UInt8.ofNat (d + 48) := by
  have : ∀ d < 10, UInt8.ofNat (Nat.digitChar d).toNat = UInt8.ofNat (d + 48) := by decide
  exact this d h

theorem showNat_rec (n : Nat) : Spec.showNat n =
    if n / 10 = 0 then [UInt8.ofNat (n % 10 + 48)] else Spec.showNat (n / 10) ++ [UInt8.ofNat (n % 10 + 48)] := by
  split
  · rename_i h
    have hn : n < 10 := by omega
    rw [showNat_eq, Nat.toDigits_of_lt_base hn, Nat.mod_eq_of_lt hn]
    simp only [List.map_cons, List.map_nil, digitChar_byte hn]
  · rename_i h
    rw [showNat_eq, showNat_eq, Nat.toDigits_of_base_le (by decide) (by omega), List.map_append]
    simp only [List.map_cons, List.map_nil, digitChar_byte (Nat.mod_lt n (by decide : 0 < 10))]

theorem byte_digit {d : Nat} (h : d < 10) : isDigit (UInt8.ofNat (d + 48)) = true ∧ digitVal (UInt8.ofNat (d + 48)) = d := by
  have : ∀ d < 10, isDigit (UInt8.ofNat (d + 48)) = true ∧ digitVal (UInt8.ofNat (d + 48)) = d := by decide
  exact this d h

theorem showNat_digits (n : Nat) : ∀ b ∈ Spec.showNat n, isDigit b = true := by
  induction n using Nat.strongRecOn with
  | _ n ih =>
    rw [showNat_rec]
    have hd := (byte_digit (Nat.mod_lt n (by decide : 0 < 10))).1
    split
    · intro b hb; simp only [List.mem_singleton] at hb; rw [hb]; exact hd
    · intro b hb
      rw [List.mem_append, List.mem_singleton] at hb
      rcases hb with hb | hb
      · exact ih (n / 10) (by omega) b hb
      · rw [hb]; exact hd

theorem showNat_value (n : Nat) : decVal (Spec.showNat n) = n := by
  induction n using Nat.strongRecOn with
  | _ n ih =>
    rw [showNat_rec]
    have hd := (byte_digit (Nat.mod_lt n (by decide : 0 < 10))).2
    split
    · simp only [decVal, List.foldl_cons, List.foldl_nil, hd]; omega
    · have := ih (n / 10) (by omega)
      unfold decVal at this ⊢
      rw [List.foldl_append, this]
      simp only [List.foldl_cons, List.foldl_nil, hd]; omega

theorem showNat_ne_nil (n : Nat) : Spec.showNat n ≠ [] := by
  rw [showNat_rec]; split <;> simp

theorem showNat_noNl (n : Nat) : nl ∉ Spec.showNat n := by
  intro h
  have := showNat_digits n nl h
  simp [isDigit_nl] at this

theorem sizeLoop_eq : ∀ (f n : Nat), n < f → sizeLoop f n = (Spec.showNat n).length := by
  intro f
  induction f with
  | zero => intro n h; omega
  | succ f ih =>
    intro n h
    rw [sizeLoop, showNat_rec]
    split
    · rfl
    · rw [ih (n / 10) (by omega), List.length_append]; rfl

theorem writeSizeU_eq (n : Nat) : writeSizeU n = (Spec.showNat n).length := sizeLoop_eq _ _ (by omega)

/-- The digit loop stores the decimal representation from the right. -/
theorem digitLoop_eq : ∀ (f n p : Nat), n < f →
    digitLoop f (p + (Spec.showNat n).length - 1) n = (blockActs p (Spec.showNat n)).reverse := by
  intro f
  induction f with
  | zero => intro n p h; omega
  | succ f ih =>
    intro n p h
    rw [digitLoop, showNat_rec]
    split
    · simp [blockActs]
    · rw [blockActs_append, List.reverse_append]
      have hl : (Spec.showNat (n / 10)).length ≠ 0 := by
        simpa using showNat_ne_nil (n / 10)
      have := ih (n / 10) p (by omega)
      simp only [List.length_append, List.length_cons, List.length_nil, blockActs, List.reverse_cons, List.reverse_nil,
        List.nil_append, List.singleton_append]
      congr 1

theorem writeAsciiU_acts (fp n : Nat) : (writeAsciiU fp n).1 = (blockActs fp (Spec.showNat n)).reverse ∧
    (writeAsciiU fp n).2 = fp + (Spec.showNat n).length := by
  unfold writeAsciiU
  rw [writeSizeU_eq]
  refine ⟨?_, rfl⟩
  have hl : (Spec.showNat n).length ≠ 0 := by simpa using showNat_ne_nil n
  rw [← Nat.add_sub_assoc (by omega)]
  exact digitLoop_eq _ _ _ (by omega)

theorem tdiv_toNat (z : Int) : (z.tdiv 10).natAbs = z.natAbs / 10 := by
  rw [Int.natAbs_tdiv]; rfl

theorem sizeLoopS_eq : ∀ (f : Nat) (z : Int), z.natAbs < f → sizeLoopS f z = (Spec.showNat z.natAbs).length := by
  intro f
  induction f with
  | zero => intro z h; omega
  | succ f ih =>
    intro z h
    have h0 : z.tdiv 10 = 0 ↔ z.natAbs / 10 = 0 := by
      rw [← tdiv_toNat]; exact Int.natAbs_eq_zero.symm
    rw [sizeLoopS, showNat_rec]
    by_cases hz : z.natAbs / 10 = 0
    · rw [if_pos (h0.mpr hz), if_pos hz]; rfl
    · rw [if_neg (fun h => hz (h0.mp h)), if_neg hz, ih _ (by rw [tdiv_toNat]; omega), tdiv_toNat, List.length_append]
      rfl

theorem writeSizeS_eq (z : Int) : writeSizeS z = (Spec.showInt z).length := by
  unfold writeSizeS Spec.showInt
  rw [sizeLoopS_eq _ _ (by omega)]
  split
  · rw [List.length_append]; rfl
  · simp

theorem writeAsciiS_acts (w fp : Nat) (z : Int) (h : z.natAbs < 2 ^ (w - 1)) :
    ∃ acts, writeAsciiS w fp z = .ok (acts, fp + (Spec.showInt z).length) ∧
      acts.Perm (blockActs fp (Spec.showInt z)) := by
  unfold writeAsciiS getPositive Spec.showInt
  by_cases hz : z < 0
  · simp only [hz, h, if_true, ok_bind]
    obtain ⟨h1, h2⟩ := writeAsciiU_acts (fp + 1) z.natAbs
    refine ⟨[(fp, 45)] ++ (writeAsciiU (fp + 1) z.natAbs).1, ?_, ?_⟩
    · rw [h2]; rw [List.length_append, show (str "-").length = 1 from rfl, Nat.add_assoc]
    · rw [h1, blockActs_append]
      exact List.Perm.append_left [(fp, 45)] (List.reverse_perm _)
  · simp only [hz, if_false, ok_bind]
    have hn : z.toNat = z.natAbs := by omega
    obtain ⟨h1, h2⟩ := writeAsciiU_acts fp z.natAbs
    rw [hn]
    refine ⟨(writeAsciiU fp z.natAbs).1, by rw [h2]; rfl, ?_⟩
    rw [h1]
    exact List.reverse_perm _

end Pigo
