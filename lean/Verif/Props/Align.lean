import Verif.Model.Align
import Verif.Props.Wide

/-!
# C94: alignment of the header fields

`rdA`/`wA` are the accesses `*(T*)fp` of `read` and `write`, undefined at positions that are not multiples of the size.  The magic strings of COO and CSR files have
11 characters and are followed by two bytes: the first field is at position 13.
-/

namespace Pigo

open Spec

variable {α β W : Type}

theorem rdA_one (μ : Mapping) (p : Nat) : rdA μ 1 p = rdLE μ 1 p := if_pos (Nat.mod_one p)

theorem rdA_mul (μ : Mapping) {k p : Nat} (h : p % k = 0) : rdA μ k p = rdLE μ k p := if_pos h

theorem rdA_bad (μ : Mapping) {k p : Nat} (h : p % k ≠ 0) : rdA μ k p = .error .oob := if_neg h

theorem R.lift_congr {x : M α} {k k' : α → R β} (h : ∀ a, x = .ok a → k a = k' a) : (R.lift x >>= k) = (R.lift x >>= k') := by
  cases x with
  | error f =>
    funext o
    apply propext
    constructor <;> (rintro ⟨o1, h1, h2⟩; cases h1; exact ⟨_, rfl, h2⟩)
  | ok a => rw [R.lift_bind rfl, R.lift_bind rfl]; exact h a rfl

theorem R.lift_error {x : M α} {f : Fault} (h : x = .error f) (k : α → R β) (o : M β) : (R.lift x >>= k).Out o ↔ o = .error f := by
  subst h
  constructor
  · rintro ⟨o1, h1, h2⟩
    cases h1
    exact h2
  · rintro rfl
    exact ⟨_, rfl, rfl⟩

/-! ### Loading -/

/-- Every outcome of `p` is one of `q`, or undefined behaviour. -/
def UpToUB (p q : R α) : Prop := ∀ o, p.Out o → q.Out o ∨ o = .error .oob

theorem UpToUB.refl (p : R α) : UpToUB p p := fun _ h => .inl h

theorem UpToUB.bind {p : R α} {k k' : α → R β} (h : ∀ a, p (.ok a) → UpToUB (k a) (k' a)) : UpToUB (p >>= k) (p >>= k') := by
  rintro o ⟨o1, h1, h2⟩
  cases o1 with
  | error f => exact .inl ⟨_, h1, h2⟩
  | ok a =>
    rcases h a h1 o h2 with h | h
    · exact .inl ⟨_, h1, h⟩
    · exact .inr h

theorem UpToUB.lift {x : M α} {k k' : α → R β} (h : ∀ a, UpToUB (k a) (k' a)) : UpToUB (R.lift x >>= k) (R.lift x >>= k') :=
  .bind fun a _ => h a

theorem UpToUB.rd {μ : Mapping} {n p : Nat} {k k' : Nat × Nat → R β} (h : ∀ a, UpToUB (k a) (k' a)) :
    UpToUB (R.lift (rdA μ n p) >>= k) (R.lift (rdLE μ n p) >>= k') := by
  unfold rdA
  split
  · exact .lift h
  · rintro o ⟨o1, h1, h2⟩
    cases h1
    exact .inr h2

/-- **C94 (loading)**: a load with checked alignment ends as the load without, or is undefined. -/
theorem C94_load_sound (T lb ob : Nat) (wgt : Bool) (cw : Codec W) (μ : Mapping) (p : Nat) :
    (∀ o, (aReadBinCoo T lb ob wgt cw μ p).Out o → (readBinCoo T lb ob wgt cw μ p).Out o ∨ o = .error .oob) ∧
    (∀ o, (aReadBinCsr T lb ob wgt cw μ p).Out o → (readBinCsr T lb ob wgt cw μ p).Out o ∨ o = .error .oob) := by
  constructor
  · refine (show UpToUB _ _ from ?_)
    unfold aReadBinCoo readBinCoo
    exact .lift fun p => .rd fun ⟨ls, p⟩ => .rd fun ⟨os, p⟩ => .lift fun _ => .lift fun _ => .rd fun ⟨_, p⟩ => .rd fun ⟨_, p⟩ => .rd fun ⟨_, p⟩ =>
      .rd fun ⟨_, p⟩ => .refl _
  · refine (show UpToUB _ _ from ?_)
    unfold aReadBinCsr readBinCsr
    exact .lift fun p => .rd fun ⟨ls, p⟩ => .rd fun ⟨os, p⟩ => .lift fun _ => .lift fun _ => .rd fun ⟨_, p⟩ => .rd fun ⟨_, p⟩ => .rd fun ⟨_, p⟩ =>
      .rd fun ⟨_, p⟩ => .refl _

theorem rdStr_pos {μ : Mapping} {s : List Byte} {p q : Nat} (h : rdStr μ s p = .ok q) : q = p + s.length := by
  unfold rdStr at h
  cases ha : atStr μ s ⟨p, μ.bytes.length⟩ with
  | error f => rw [ha] at h; cases h
  | ok b =>
    rw [ha] at h
    cases b
    · cases h
    · cases h; rfl

theorem rdLE_pos {μ : Mapping} {k p : Nat} {r : Nat × Nat} (h : rdLE μ k p = .ok r) : r.2 = p + k := by
  unfold rdLE at h
  cases ha : getBytes μ k p with
  | error f => rw [ha] at h; cases h
  | ok b => rw [ha] at h; cases h; rfl

/-- **C94 (bytes)**: labels and ordinals of one byte are loaded as without the checks. -/
theorem C94_bytes (T : Nat) (wgt : Bool) (cw : Codec W) (μ : Mapping) (p : Nat) :
    (∀ o, (aReadBinCoo T 1 1 wgt cw μ p).Out o ↔ (readBinCoo T 1 1 wgt cw μ p).Out o) ∧
    (∀ o, (aReadBinCsr T 1 1 wgt cw μ p).Out o ↔ (readBinCsr T 1 1 wgt cw μ p).Out o) := by
  constructor
  · intro o
    unfold aReadBinCoo readBinCoo
    simp only [rdA_one]
  · intro o
    unfold aReadBinCsr readBinCsr
    simp only [rdA_one]

/-- **C94 (tensors with weights)**: the magic string, the two sizes and the size of a weight take 16 bytes, so every field of the header of a tensor file with weights
is aligned, whatever the file contains. -/
theorem C94_tensor_weighted (T lb ob : Nat) (hob : ob = 1 ∨ ob = 2 ∨ ob = 4 ∨ ob = 8) (cw : Codec W) (μ : Mapping) (o : M (Tensor W)) :
    (aReadBinTensor T lb ob true cw μ 0).Out o ↔ (readBinTensor T lb ob true cw μ 0).Out o := by
  have e : aReadBinTensor T lb ob true cw μ 0 = readBinTensor T lb ob true cw μ 0 := by
    unfold aReadBinTensor readBinTensor
    simp only [rdA_one, if_true]
    refine R.lift_congr fun p hp => R.lift_congr fun ⟨ls, p1⟩ h1 => R.lift_congr fun ⟨os, p2⟩ h2 => R.lift_congr fun _ _ => R.lift_congr fun _ _ =>
      R.lift_congr fun p3 h3 => ?_
    have hp := rdStr_pos hp
    have h1 := rdLE_pos h1
    have h2 := rdLE_pos h2
    dsimp only at h1 h2 h3
    have h3 : p3 = p2 + 1 := by
      cases ha : rdLE μ 1 p2 with
      | error f => rw [ha] at h3; cases h3
      | ok r =>
        rw [ha] at h3
        have hr := rdLE_pos ha
        cases hc : sizeCheck r.1 cw.size with
        | error f => rw [show (Except.ok r >>= fun (x : Nat × Nat) => sizeCheck x.1 cw.size >>= fun _ => (.ok x.2 : M Nat)) = (sizeCheck r.1 cw.size >>= fun _ => .ok r.2) from rfl, hc] at h3; cases h3
        | ok u =>
          rw [show (Except.ok r >>= fun (x : Nat × Nat) => sizeCheck x.1 cw.size >>= fun _ => (.ok x.2 : M Nat)) = (sizeCheck r.1 cw.size >>= fun _ => .ok r.2) from rfl, hc] at h3
          cases h3
          exact hr
    have h16 : p3 = 16 := by
      rw [h3, h2, h1, hp]
      rfl
    subst h16
    have a1 : 16 % ob = 0 := by rcases hob with rfl | rfl | rfl | rfl <;> rfl
    rw [rdA_mul μ a1]
    refine R.lift_congr fun ⟨order, p4⟩ h4 => ?_
    have h4 := rdLE_pos h4
    dsimp only at h4 ⊢
    rw [rdA_mul μ (by rw [h4, Nat.add_mod_right]; exact a1)]
  rw [e]

section
variable {lb ob nrows ncols n m order : Nat} (hob : ob < 256) {μ : Mapping} {rest : List Byte}

/-- **C94 is violated (COO)**: every load of a file with the header of the type, with labels of 2, 4 or 8 bytes, has a misaligned access, at position 13. -/
theorem C94_coo_violated (hob : ob < 256) (hlb : lb = 2 ∨ lb = 4 ∨ lb = 8) (hμ : μ.bytes = cooHead lb ob nrows ncols n m ++ rest) (T : Nat) (wgt : Bool)
    (cw : Codec W) (o : M (Coo W × Nat)) : (aReadBinCoo T lb ob wgt cw μ 0).Out o ↔ o = .error .oob := by
  have hl' : lb < 256 := by omega
  have hr : Rest μ 0 (cooMagic ++ (encLE 1 lb ++ (encLE 1 ob ++ (encLE lb nrows ++ (encLE lb ncols ++ (encLE lb n ++ (encLE ob m ++
      (rest ++ List.replicate μ.pad 0)))))))) := by
    refine ⟨Nat.zero_le _, ?_⟩
    rw [List.drop_zero, Mapping.mem, hμ, cooHead]
    simp only [encLE_eq, List.append_assoc]
    rfl
  have hb : 0 + cooMagic.length < μ.bytes.length := by
    rw [hμ]
    simp only [cooHead, List.length_append, ← encLE_eq, encLE_length, cooMagic]
    omega
  unfold aReadBinCoo
  rw [R.lift_bind (rdStr_at hr hb)]
  have hr := hr.next
  rw [rdA_one, R.lift_bind (rdLE_at hr (encLE_length ..))]
  have hr := hr.next; rw [encLE_length] at hr
  dsimp only
  rw [rdA_one, R.lift_bind (rdLE_at hr (encLE_length ..))]
  dsimp only
  rw [decLE_encLE (k := 1) (n := lb) (by simpa using hl'), decLE_encLE (k := 1) (n := ob) (by simpa using hob)]
  rw [R.lift_bind (sizeCheck_self lb), R.lift_bind (sizeCheck_self ob)]
  refine R.lift_error (rdA_bad μ ?_) _ o
  rcases hlb with rfl | rfl | rfl <;> decide

/-- C94 is violated (CSR) -/
theorem C94_csr_violated (hob : ob < 256) (hlb : lb = 2 ∨ lb = 4 ∨ lb = 8) (hμ : μ.bytes = csrHead lb ob n m nrows ncols ++ rest) (T : Nat) (wgt : Bool)
    (cw : Codec W) (o : M (Csr W × Nat)) : (aReadBinCsr T lb ob wgt cw μ 0).Out o ↔ o = .error .oob := by
  have hl' : lb < 256 := by omega
  have hr : Rest μ 0 (csrMagic ++ (encLE 1 lb ++ (encLE 1 ob ++ (encLE lb n ++ (encLE ob m ++ (encLE lb nrows ++ (encLE lb ncols ++
      (rest ++ List.replicate μ.pad 0)))))))) := by
    refine ⟨Nat.zero_le _, ?_⟩
    rw [List.drop_zero, Mapping.mem, hμ, csrHead]
    simp only [encLE_eq, List.append_assoc]
    rfl
  have hb : 0 + csrMagic.length < μ.bytes.length := by
    rw [hμ]
    simp only [csrHead, List.length_append, ← encLE_eq, encLE_length, csrMagic]
    omega
  unfold aReadBinCsr
  rw [R.lift_bind (rdStr_at hr hb)]
  have hr := hr.next
  rw [rdA_one, R.lift_bind (rdLE_at hr (encLE_length ..))]
  have hr := hr.next; rw [encLE_length] at hr
  dsimp only
  rw [rdA_one, R.lift_bind (rdLE_at hr (encLE_length ..))]
  dsimp only
  rw [decLE_encLE (k := 1) (n := lb) (by simpa using hl'), decLE_encLE (k := 1) (n := ob) (by simpa using hob)]
  rw [R.lift_bind (sizeCheck_self lb), R.lift_bind (sizeCheck_self ob)]
  refine R.lift_error (rdA_bad μ ?_) _ o
  rcases hlb with rfl | rfl | rfl <;> decide

/-- **C94 is violated (Tensor without weights)**: the order is at position 15. -/
theorem C94_tensor_violated (hlb : lb < 256) (hob : ob = 2 ∨ ob = 4 ∨ ob = 8) (cw : Codec W) (hμ : μ.bytes = tensorHead lb ob false cw.size order m ++ rest)
    (T : Nat) (o : M (Tensor W)) : (aReadBinTensor T lb ob false cw μ 0).Out o ↔ o = .error .oob := by
  have hl' : ob < 256 := by omega
  have hr : Rest μ 0 (tensorMagic ++ (encLE 1 lb ++ (encLE 1 ob ++ (encLE ob order ++ (encLE ob m ++ (rest ++ List.replicate μ.pad 0)))))) := by
    refine ⟨Nat.zero_le _, ?_⟩
    rw [List.drop_zero, Mapping.mem, hμ, tensorHead]
    simp only [encLE_eq, List.append_assoc]
    rfl
  have hb : 0 + tensorMagic.length < μ.bytes.length := by
    rw [hμ]
    simp only [tensorHead, List.length_append, ← encLE_eq, encLE_length, tensorMagic]
    omega
  unfold aReadBinTensor
  rw [R.lift_bind (rdStr_at hr hb)]
  have hr := hr.next
  rw [rdA_one, R.lift_bind (rdLE_at hr (encLE_length ..))]
  have hr := hr.next; rw [encLE_length] at hr
  dsimp only
  rw [rdA_one, R.lift_bind (rdLE_at hr (encLE_length ..))]
  dsimp only
  rw [decLE_encLE (k := 1) (n := lb) (by simpa using hlb), decLE_encLE (k := 1) (n := ob) (by simpa using hl')]
  rw [R.lift_bind (sizeCheck_self lb), R.lift_bind (sizeCheck_self ob)]
  rw [R.lift_bind (a := 0 + tensorMagic.length + 1 + 1) (by rfl)]
  refine R.lift_error (rdA_bad μ ?_) _ o
  rcases hob with rfl | rfl | rfl <;> decide

end

/-! ### Saving -/

theorem wA_one (v : Nat) (f : WFile) : wA 1 v f = wBytes (encLE 1 v) f := if_pos (Nat.mod_one _)

theorem wA_bad {k : Nat} (v : Nat) {f : WFile} (h : f.fp % k ≠ 0) : wA k v f = .error .oob := if_neg h

theorem wA_mul {k : Nat} (v : Nat) {f : WFile} (h : f.fp % k = 0) : wA k v f = wBytes (encLE k v) f := if_pos h

/-- What is true after a store that fits. -/
theorem wBytes_ok {f : WFile} {size : Nat} {P : List Byte} (h : Wrote f size P) (bs : List Byte) (hs : P.length + bs.length ≤ size) :
    ∃ f', wBytes bs f = .ok f' ∧ Wrote f' size (P ++ bs) := by
  refine ⟨_, ?_, h.put hs⟩
  rw [wBytes, run_block (List.Perm.refl _) f.bytes (by rw [h.fp, h.size]; exact hs)]
  rfl

theorem openW_ok {size : Nat} (h : 0 < size) : ∃ f, openW size = .ok f ∧ Wrote f size [] := by
  refine ⟨⟨0, List.replicate (size - 1) 0 ++ [1]⟩, if_neg (by omega), rfl, ?_, rfl⟩
  simp; omega

/-- **C94 is violated (saving)**: every save of every COO and CSR with labels of 2, 4 or 8 bytes has a misaligned store. -/
theorem C94_save_coo_violated (T lb ob : Nat) (hlb : lb = 2 ∨ lb = 4 ∨ lb = 8) (wgt : Bool) (cw : Codec W) (c : Coo W) (o : M (List Byte)) :
    (aSaveCoo T lb ob wgt cw c).Out o ↔ o = .error .oob := by
  have hm : cooMagic.length = 11 := rfl
  have hsz : 13 < cooSaveSize lb ob wgt cw c := by unfold cooSaveSize; omega
  unfold aSaveCoo
  obtain ⟨f, hf, hw⟩ := openW_ok (Nat.lt_trans (by decide) hsz)
  rw [R.lift_bind hf]
  obtain ⟨f, hf, hw⟩ := wBytes_ok hw cooMagic (by rw [hm, List.length_nil]; omega)
  rw [R.lift_bind hf, wA_one]
  obtain ⟨f, hf, hw⟩ := wBytes_ok hw (encLE 1 lb) (by simp only [List.length_append, encLE_length, hm, List.length_nil]; omega)
  rw [R.lift_bind hf, wA_one]
  obtain ⟨f, hf, hw⟩ := wBytes_ok hw (encLE 1 ob) (by simp only [List.length_append, encLE_length, hm, List.length_nil]; omega)
  rw [R.lift_bind hf]
  refine R.lift_error (wA_bad _ ?_) _ o
  rw [hw.fp]
  simp only [List.length_append, encLE_length, hm, List.length_nil]
  rcases hlb with rfl | rfl | rfl <;> decide

/-- C94 is violated (saving, CSR) -/
theorem C94_save_csr_violated (T lb ob : Nat) (hlb : lb = 2 ∨ lb = 4 ∨ lb = 8) (wgt : Bool) (cw : Codec W) (c : Csr W) (o : M (List Byte)) :
    (aSaveCsr T lb ob wgt cw c).Out o ↔ o = .error .oob := by
  have hm : csrMagic.length = 11 := rfl
  have hsz : 13 < csrSaveSize lb ob wgt cw c := by unfold csrSaveSize; omega
  unfold aSaveCsr aSaveCsrTo
  obtain ⟨f, hf, hw⟩ := openW_ok (Nat.lt_trans (by decide) hsz)
  rw [R.lift_bind hf]
  obtain ⟨f, hf, hw⟩ := wBytes_ok hw csrMagic (by rw [hm, List.length_nil]; omega)
  rw [R.lift_bind hf, wA_one]
  obtain ⟨f, hf, hw⟩ := wBytes_ok hw (encLE 1 lb) (by simp only [List.length_append, encLE_length, hm, List.length_nil]; omega)
  rw [R.lift_bind hf, wA_one]
  obtain ⟨f, hf, hw⟩ := wBytes_ok hw (encLE 1 ob) (by simp only [List.length_append, encLE_length, hm, List.length_nil]; omega)
  rw [R.lift_bind hf]
  have hbad : wA lb c.n f = .error .oob := wA_bad _ (by
    rw [hw.fp]
    simp only [List.length_append, encLE_length, hm, List.length_nil]
    rcases hlb with rfl | rfl | rfl <;> decide)
  rw [hbad]
  constructor
  · rintro ⟨o1, ⟨o2, h2, h3⟩, h4⟩
    cases h2
    cases h3
    exact h4
  · rintro rfl
    exact ⟨_, ⟨_, rfl, rfl⟩, rfl⟩

/-- C94 (saving, Tensor with weights): the same file as without the checks. -/
theorem C94_save_tensor_weighted (T lb ob : Nat) (hob : ob = 1 ∨ ob = 2 ∨ ob = 4 ∨ ob = 8) (cw : Codec W) (t : Tensor W) (o : M (List Byte)) :
    (aSaveTensor T lb ob true cw t).Out o ↔ (saveTensor T lb ob true cw t).Out o := by
  have hm : tensorMagic.length = 13 := rfl
  have hsz : 16 + 2 * ob ≤ tensorSaveSize lb ob true cw t := by unfold tensorSaveSize; rw [if_pos rfl]; omega
  have a1 : 16 % ob = 0 := by rcases hob with rfl | rfl | rfl | rfl <;> rfl
  unfold aSaveTensor saveTensor
  simp only [if_true, wA_one]
  obtain ⟨f, hf, hw⟩ := openW_ok (Nat.lt_of_lt_of_le (by omega) hsz)
  rw [R.lift_bind hf, R.lift_bind hf]
  obtain ⟨f, hf, hw⟩ := wBytes_ok hw tensorMagic (by rw [hm, List.length_nil]; omega)
  rw [R.lift_bind hf, R.lift_bind hf]
  obtain ⟨f, hf, hw⟩ := wBytes_ok hw (encLE 1 lb) (by simp only [List.length_append, encLE_length, hm, List.length_nil]; omega)
  rw [R.lift_bind hf, R.lift_bind hf]
  obtain ⟨f, hf, hw⟩ := wBytes_ok hw (encLE 1 ob) (by simp only [List.length_append, encLE_length, hm, List.length_nil]; omega)
  rw [R.lift_bind hf, R.lift_bind hf]
  obtain ⟨f, hf, hw⟩ := wBytes_ok hw (encLE 1 cw.size) (by simp only [List.length_append, encLE_length, hm, List.length_nil]; omega)
  rw [R.lift_bind hf, R.lift_bind hf]
  have h16 : f.fp = 16 := by
    rw [hw.fp]
    simp only [List.length_append, encLE_length, hm, List.length_nil]
  rw [wA_mul _ (by rw [h16]; exact a1)]
  obtain ⟨f', hf, hw⟩ := wBytes_ok hw (encLE ob t.order) (by simp only [List.length_append, encLE_length, hm, List.length_nil]; omega)
  rw [R.lift_bind hf, R.lift_bind hf]
  have : f'.fp = 16 + ob := by
    rw [hw.fp]
    simp only [List.length_append, encLE_length, hm, List.length_nil]
  rw [wA_mul _ (by rw [this, Nat.add_mod_right]; exact a1)]

/-- C94 is violated (saving, Tensor without weights) -/
theorem C94_save_tensor_violated (T lb ob : Nat) (hob : ob = 2 ∨ ob = 4 ∨ ob = 8) (cw : Codec W) (t : Tensor W) (o : M (List Byte)) :
    (aSaveTensor T lb ob false cw t).Out o ↔ o = .error .oob := by
  have hm : tensorMagic.length = 13 := rfl
  have hsz : 15 < tensorSaveSize lb ob false cw t := by unfold tensorSaveSize; omega
  unfold aSaveTensor
  obtain ⟨f, hf, hw⟩ := openW_ok (Nat.lt_trans (by decide) hsz)
  rw [R.lift_bind hf]
  obtain ⟨f, hf, hw⟩ := wBytes_ok hw tensorMagic (by rw [hm, List.length_nil]; omega)
  rw [R.lift_bind hf, wA_one]
  obtain ⟨f, hf, hw⟩ := wBytes_ok hw (encLE 1 lb) (by simp only [List.length_append, encLE_length, hm, List.length_nil]; omega)
  rw [R.lift_bind hf, wA_one]
  obtain ⟨f, hf, hw⟩ := wBytes_ok hw (encLE 1 ob) (by simp only [List.length_append, encLE_length, hm, List.length_nil]; omega)
  rw [R.lift_bind hf, if_neg (by decide)]
  obtain ⟨f, hf, hw⟩ := wBytes_ok hw [] (by simp only [List.length_append, encLE_length, hm, List.length_nil]; omega)
  rw [R.lift_bind hf]
  refine R.lift_error (wA_bad _ ?_) _ o
  rw [hw.fp]
  simp only [List.length_append, encLE_length, hm, List.length_nil]
  rcases hob with rfl | rfl | rfl <;> decide

/-! ### The cases are not empty -/

example (o : M (Coo Int × Nat)) : (aReadBinCoo 3 4 8 true (codecInt 4 (by decide)) ⟨Spec.cooFile 4 8 true (codecInt 4 (by decide)) binCoo, 7⟩ 0).Out o ↔ o = .error .oob :=
  C94_coo_violated (rest := (Spec.cooFile 4 8 true (codecInt 4 (by decide)) binCoo).drop 33) (nrows := 3) (ncols := 4) (n := 4) (m := 3) (by decide)
    (.inr (.inl rfl)) (by decide) 3 true (codecInt 4 (by decide)) o

example (o : M (Csr Nat × Nat)) : (aReadBinCsr 3 4 8 true (codecNat 1 (by decide)) ⟨Spec.csrFile 4 8 true (codecNat 1 (by decide)) binCsr, 7⟩ 0).Out o ↔ o = .error .oob :=
  C94_csr_violated (rest := (Spec.csrFile 4 8 true (codecNat 1 (by decide)) binCsr).drop 33) (nrows := 3) (ncols := 3) (n := 3) (m := 3) (by decide)
    (.inr (.inl rfl)) (by decide) 3 true (codecNat 1 (by decide)) o

example (cw : Codec W) (o : M (Tensor W)) : (aReadBinTensor 3 4 8 false cw ⟨tensorHead 4 8 false cw.size 3 0, 7⟩ 0).Out o ↔ o = .error .oob :=
  C94_tensor_violated (rest := []) (by decide) (.inr (.inr rfl)) cw (List.append_nil _).symm 3 o

/-- A tensor with weights, saved and loaded back. -/
example : (aSaveTensor 3 4 8 true (codecNat 8 (by decide)) binTensor).Out (.ok (Spec.tensorFile 4 8 true (codecNat 8 (by decide)) binTensor)) ↔
    (saveTensor 3 4 8 true (codecNat 8 (by decide)) binTensor).Out (.ok (Spec.tensorFile 4 8 true (codecNat 8 (by decide)) binTensor)) :=
  C94_save_tensor_weighted 3 4 8 (.inr (.inr (.inr rfl))) _ _ _

end Pigo
