import Verif.Props.AlignGraph

/-!
# Properties: the remaining aligned and misaligned headers

C94 for labels of one byte: which headers are aligned depends on the size of the ordinals.  Together with the violated theorems of
`Align` (labels of 2, 4 or 8 bytes; tensors without weights) every combination of the sizes 1, 2, 4 and 8 is settled.
-/

namespace Pigo

variable {W : Type}

/-- **C94 (COO, one-byte labels)**: the three sizes are at 13, 14 and 15, the number of entries at 16: every load, of any file, is as without
the checks, whatever the size of the ordinals. -/
theorem C94_coo_bytes (T ob : Nat) (hob : ob = 1 ∨ ob = 2 ∨ ob = 4 ∨ ob = 8) (wgt : Bool) (cw : Codec W) (μ : Mapping) (o : M (Coo W × Nat)) :
    (aReadBinCoo T 1 ob wgt cw μ 0).Out o ↔ (readBinCoo T 1 ob wgt cw μ 0).Out o := by
  have e : aReadBinCoo T 1 ob wgt cw μ 0 = readBinCoo T 1 ob wgt cw μ 0 := by
    unfold aReadBinCoo readBinCoo
    simp only [rdA_one]
    refine R.lift_congr fun p hp => R.lift_congr fun ⟨ls, p1⟩ h1 => R.lift_congr fun ⟨os, p2⟩ h2 => R.lift_congr fun _ _ => R.lift_congr fun _ _ =>
      R.lift_congr fun ⟨_, p3⟩ h3 => R.lift_congr fun ⟨_, p4⟩ h4 => R.lift_congr fun ⟨_, p5⟩ h5 => ?_
    have hp := rdStr_pos hp
    have h1 := rdLE_pos h1
    have h2 := rdLE_pos h2
    have h3 := rdLE_pos h3
    have h4 := rdLE_pos h4
    have h5 := rdLE_pos h5
    dsimp only at h1 h2 h3 h4 h5 ⊢
    have h16 : p5 = 16 := by rw [h5, h4, h3, h2, h1, hp]; rfl
    subst h16
    rw [rdA_mul μ (by rcases hob with rfl | rfl | rfl | rfl <;> rfl)]
  rw [e]

/-- **C94 (CSR, one-byte labels)**: the number of entries is at 14, which is aligned for ordinals of two bytes. -/
theorem C94_csr_bytes (T ob : Nat) (hob : ob = 1 ∨ ob = 2) (wgt : Bool) (cw : Codec W) (μ : Mapping) (o : M (Csr W × Nat)) :
    (aReadBinCsr T 1 ob wgt cw μ 0).Out o ↔ (readBinCsr T 1 ob wgt cw μ 0).Out o := by
  have e : aReadBinCsr T 1 ob wgt cw μ 0 = readBinCsr T 1 ob wgt cw μ 0 := by
    unfold aReadBinCsr readBinCsr
    simp only [rdA_one]
    refine R.lift_congr fun p hp => R.lift_congr fun ⟨ls, p1⟩ h1 => R.lift_congr fun ⟨os, p2⟩ h2 => R.lift_congr fun _ _ => R.lift_congr fun _ _ =>
      R.lift_congr fun ⟨_, p3⟩ h3 => ?_
    have hp := rdStr_pos hp
    have h1 := rdLE_pos h1
    have h2 := rdLE_pos h2
    have h3 := rdLE_pos h3
    dsimp only at h1 h2 h3 ⊢
    have h14 : p3 = 14 := by rw [h3, h2, h1, hp]; rfl
    subst h14
    rw [rdA_mul μ (by rcases hob with rfl | rfl <;> rfl)]
  rw [e]

/-- **C94 is violated (CSR, one-byte labels)**: with ordinals of 4 or 8 bytes every load of a file with the header of the type has a
misaligned access, at position 14. -/
theorem C94_csr_bytes_violated {ob n m nrows ncols : Nat} (hob : ob = 4 ∨ ob = 8) {μ : Mapping} {rest : List Byte}
    (hμ : μ.bytes = Spec.csrHead 1 ob n m nrows ncols ++ rest) (T : Nat) (wgt : Bool) (cw : Codec W) (o : M (Csr W × Nat)) :
    (aReadBinCsr T 1 ob wgt cw μ 0).Out o ↔ o = .error .oob := by
  have hr : Rest μ 0 (csrMagic ++ (encLE 1 1 ++ (encLE 1 ob ++ (encLE 1 n ++ (encLE ob m ++ (encLE 1 nrows ++ (encLE 1 ncols ++
      (rest ++ List.replicate μ.pad 0)))))))) := by
    refine ⟨Nat.zero_le _, ?_⟩
    rw [List.drop_zero, Mapping.mem, hμ, Spec.csrHead]
    simp only [encLE_eq, List.append_assoc]
    rfl
  have hb : 0 + csrMagic.length < μ.bytes.length := by
    rw [hμ]
    simp only [Spec.csrHead, List.length_append, ← encLE_eq, encLE_length, csrMagic]
    omega
  have h := (aReadBinCsr_exact (T := T) (lb := 1) (ob := ob) (by decide) (by omega) (wgt := wgt) cw hr hb).2 (by
    rintro ⟨_, h, _⟩
    rcases hob with rfl | rfl <;> revert h <;> decide)
  rw [h]
  exact Iff.rfl

/-- **C94 (Tensor without weights)**: with ordinals of one byte every load, of any file, is as without the checks. -/
theorem C94_tensor_bytes (T lb : Nat) (cw : Codec W) (μ : Mapping) (o : M (Tensor W)) :
    (aReadBinTensor T lb 1 false cw μ 0).Out o ↔ (readBinTensor T lb 1 false cw μ 0).Out o := by
  have e : aReadBinTensor T lb 1 false cw μ 0 = readBinTensor T lb 1 false cw μ 0 := by
    unfold aReadBinTensor readBinTensor
    simp only [rdA_one]
  rw [e]

/-! ### Saving -/

/-- **C94 (saving a COO with one-byte labels)**: the same file as without the checks. -/
theorem C94_save_coo_bytes (T ob : Nat) (hob : ob = 1 ∨ ob = 2 ∨ ob = 4 ∨ ob = 8) (wgt : Bool) (cw : Codec W) (c : Coo W) (o : M (List Byte)) :
    (aSaveCoo T 1 ob wgt cw c).Out o ↔ (saveCoo T 1 ob wgt cw c).Out o := by
  have hm : cooMagic.length = 11 := rfl
  have hsz : 16 + ob ≤ cooSaveSize 1 ob wgt cw c := by unfold cooSaveSize; omega
  unfold aSaveCoo saveCoo
  simp only [wA_one]
  obtain ⟨f, hf, hw⟩ := openW_ok (Nat.lt_of_lt_of_le (by omega) hsz)
  rw [R.lift_bind hf, R.lift_bind hf]
  obtain ⟨f, hf, hw⟩ := wBytes_ok hw cooMagic (by rw [hm, List.length_nil]; omega)
  rw [R.lift_bind hf, R.lift_bind hf]
  obtain ⟨f, hf, hw⟩ := wBytes_ok hw (encLE 1 1) (by simp only [List.length_append, encLE_length, hm, List.length_nil]; omega)
  rw [R.lift_bind hf, R.lift_bind hf]
  obtain ⟨f, hf, hw⟩ := wBytes_ok hw (encLE 1 ob) (by simp only [List.length_append, encLE_length, hm, List.length_nil]; omega)
  rw [R.lift_bind hf, R.lift_bind hf]
  obtain ⟨f, hf, hw⟩ := wBytes_ok hw (encLE 1 c.nrows) (by simp only [List.length_append, encLE_length, hm, List.length_nil]; omega)
  rw [R.lift_bind hf, R.lift_bind hf]
  obtain ⟨f, hf, hw⟩ := wBytes_ok hw (encLE 1 c.ncols) (by simp only [List.length_append, encLE_length, hm, List.length_nil]; omega)
  rw [R.lift_bind hf, R.lift_bind hf]
  obtain ⟨f, hf, hw⟩ := wBytes_ok hw (encLE 1 c.n) (by simp only [List.length_append, encLE_length, hm, List.length_nil]; omega)
  rw [R.lift_bind hf, R.lift_bind hf]
  have h16 : f.fp = 16 := by
    rw [hw.fp]
    simp only [List.length_append, encLE_length, hm, List.length_nil]
  rw [wA_mul _ (by rw [h16]; rcases hob with rfl | rfl | rfl | rfl <;> rfl)]

theorem aSaveCsr_exact (T lb ob : Nat) (wgt : Bool) (cw : Codec W) (c : Csr W) (o : M (List Byte)) :
    (HeadAligned lb ob 0 → ((aSaveCsr T lb ob wgt cw c).Out o ↔ (saveCsr T lb ob wgt cw c).Out o)) ∧
    (¬ HeadAligned lb ob 0 → ((aSaveCsr T lb ob wgt cw c).Out o ↔ o = .error .oob)) := by
  have hm : csrMagic.length = 11 := rfl
  unfold aSaveCsr saveCsr
  obtain ⟨f, hf, hw⟩ := openW_ok (size := csrSaveSize lb ob wgt cw c) (by unfold csrSaveSize; omega)
  rw [R.lift_bind hf, R.lift_bind hf]
  obtain ⟨h1, h2⟩ := aSaveCsrTo_exact (T := T) (lb := lb) (ob := ob) (wgt := wgt) cw c hw (by simp)
  refine ⟨fun h => by rw [h1 h], fun h => ?_⟩
  rw [h2 h]
  exact R.lift_error rfl _ o

/-- **C94 (saving a CSR with one-byte labels)**: with ordinals of one or two bytes the same file as without the checks. -/
theorem C94_save_csr_bytes (T ob : Nat) (hob : ob = 1 ∨ ob = 2) (wgt : Bool) (cw : Codec W) (c : Csr W) (o : M (List Byte)) :
    (aSaveCsr T 1 ob wgt cw c).Out o ↔ (saveCsr T 1 ob wgt cw c).Out o :=
  (aSaveCsr_exact T 1 ob wgt cw c o).1 (by rcases hob with rfl | rfl <;> (unfold HeadAligned; decide))

/-- **C94 is violated (saving a CSR with one-byte labels)**: with ordinals of 4 or 8 bytes every save has a misaligned store. -/
theorem C94_save_csr_bytes_violated (T ob : Nat) (hob : ob = 4 ∨ ob = 8) (wgt : Bool) (cw : Codec W) (c : Csr W) (o : M (List Byte)) :
    (aSaveCsr T 1 ob wgt cw c).Out o ↔ o = .error .oob :=
  (aSaveCsr_exact T 1 ob wgt cw c o).2 (by rcases hob with rfl | rfl <;> (unfold HeadAligned; decide))

/-- **C94 (saving a tensor without weights)**: with ordinals of one byte the same file as without the checks. -/
theorem C94_save_tensor_bytes (T lb : Nat) (cw : Codec W) (t : Tensor W) (o : M (List Byte)) :
    (aSaveTensor T lb 1 false cw t).Out o ↔ (saveTensor T lb 1 false cw t).Out o := by
  unfold aSaveTensor saveTensor
  simp only [wA_one, Bool.false_eq_true, if_false]

/-- A weighted COO with one-byte labels and ordinals of eight bytes. -/
example : (aSaveCoo 3 1 8 true (codecInt 4 (by decide)) binCoo).Out (.ok (Spec.cooFile 1 8 true (codecInt 4 (by decide)) binCoo)) ↔
    (saveCoo 3 1 8 true (codecInt 4 (by decide)) binCoo).Out (.ok (Spec.cooFile 1 8 true (codecInt 4 (by decide)) binCoo)) :=
  C94_save_coo_bytes 3 8 (.inr (.inr (.inr rfl))) _ _ _ _

/-- A saved CSR with one-byte labels and ordinals of eight bytes cannot be loaded without a misaligned access. -/
example (o : M (Csr Nat × Nat)) : (aReadBinCsr 3 1 8 true (codecNat 1 (by decide)) ⟨Spec.csrFile 1 8 true (codecNat 1 (by decide)) binCsr, 7⟩ 0).Out o ↔ o = .error .oob :=
  C94_csr_bytes_violated (n := 3) (m := 3) (nrows := 3) (ncols := 3) (rest := (Spec.csrFile 1 8 true (codecNat 1 (by decide)) binCsr).drop 24) (.inr rfl) (by decide) 3 true _ o

end Pigo
