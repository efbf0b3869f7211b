import Verif.Lemmas.RaceFoot

/-!
# Absence of races: binary files, copies, maxima
-/

namespace Pigo

open Spec (Access reads writes atomics Race Conflict tagged)

variable {α β S W : Type}

/-- Element `t` of the result of `mapE` comes from element `t` of the argument. -/
theorem mapE_get {f : α → M β} : ∀ {l : List α} {bs : List β}, mapE f l = .ok bs → ∀ (t : Nat) {b : β}, bs[t]? = some b →
    ∃ a, l[t]? = some a ∧ f a = .ok b
  | [], bs, h, t, b, hb => by cases h; simp at hb
  | a :: l, bs, h, t, b, hb => by
    unfold mapE at h
    cases h1 : f a with
    | error g => rw [h1] at h; cases h
    | ok c =>
      rw [h1] at h
      simp only [ok_bind] at h
      cases h2 : mapE f l with
      | error g => rw [h2] at h; cases h
      | ok cs =>
        rw [h2] at h
        cases h
        cases t with
        | zero =>
          simp only [List.getElem?_cons_zero, Option.some.injEq] at hb
          subst hb
          exact ⟨a, by simp, h1⟩
        | succ t =>
          rw [List.getElem?_cons_succ] at hb
          obtain ⟨a', ha', hf⟩ := mapE_get h2 t hb
          exact ⟨a', by simpa using ha', hf⟩

theorem mapE_len {f : α → M β} : ∀ {l : List α} {bs : List β}, mapE f l = .ok bs → bs.length = l.length
  | [], bs, h => by cases h; rfl
  | a :: l, bs, h => by
    unfold mapE at h
    cases h1 : f a with
    | error g => rw [h1] at h; cases h
    | ok c =>
      rw [h1] at h
      simp only [ok_bind] at h
      cases h2 : mapE f l with
      | error g => rw [h2] at h; cases h
      | ok cs =>
        rw [h2] at h
        cases h
        simp [mapE_len h2]

theorem range_get {T t u : Nat} (h : (List.range T)[t]? = some u) : u = t ∧ t < T := by
  obtain ⟨h1, h2⟩ := List.getElem?_eq_some_iff.mp h
  simp only [List.length_range] at h1
  simp only [List.getElem_range] at h2
  exact ⟨h2.symm, h1⟩

theorem block_within {p : Nat} {vs : List α} {q : Nat × α} (h : q ∈ blockActs p vs) : p ≤ q.1 ∧ q.1 < p + vs.length := by
  obtain ⟨k, hk, hv⟩ := mem_blockActs.mp h
  have := (List.getElem?_eq_some_iff.mp hv).1
  omega

/-- The chunks of `parallel_write` and `parallel_read` do not overlap. -/
theorem no_race_chunks {v : Nat → M Byte} {base n T : Nat} {threads : List (List (Nat × Byte))} (arr : String)
    (h : mapE (chunkActs v base n T) (List.range T) = .ok threads) (s : List Byte) :
    ¬ Race storeAct (footStore arr) threads s := by
  have hlen := mapE_len h
  rw [List.length_range] at hlen
  refine no_race_intervals (fun t => base + chunkStart n T t) (fun t => base + chunkStart n T t + chunkLen n T t) ?_ ?_
  · intro t u htu hu
    have hne : t ≠ T - 1 := by omega
    show base + chunkStart n T t + chunkLen n T t ≤ base + chunkStart n T u
    unfold chunkStart chunkLen
    rw [if_neg hne]
    have : t * (n / T) + n / T ≤ u * (n / T) := by
      rw [← Nat.succ_mul]; exact Nat.mul_le_mul_right _ htu
    omega
  · intro t l hl a ha s1 x hx
    obtain ⟨t', ht', hf⟩ := mapE_get h t hl
    obtain ⟨rfl, -⟩ := range_get ht'
    unfold chunkActs at hf
    cases h1 : mapE v (List.range' (chunkStart n T t') (chunkLen n T t')) with
    | error g => rw [h1] at hf; cases hf
    | ok bs =>
      rw [h1] at hf
      cases hf
      have hbs := mapE_len h1
      rw [List.length_range'] at hbs
      have := block_within ha
      simp only [footStore, List.mem_singleton] at hx
      subst hx
      simp only [Within, writes]
      omega

theorem parWrite_drf (T : Nat) (v : List Byte) (n : Nat) (f : WFile) : (dParWrite T v n f).drf :=
  drf_lift fun _ h => drf_bind (drf_par (acc_store _) (no_race_chunks "wfp" h _)) fun _ _ => drf_pure _

theorem saveWeights_drf (T : Nat) (wgt : Bool) (cw : Codec W) (m : Nat) (w : List W) (f : WFile) :
    (dSaveWeights T wgt cw m w f).drf := by
  unfold dSaveWeights
  split
  · exact parWrite_drf ..
  · trivial

theorem saveCoo_drf (T lb ob : Nat) (wgt : Bool) (cw : Codec W) (c : Coo W) : (dSaveCoo T lb ob wgt cw c).drf :=
  drf_lift fun _ _ => drf_lift fun _ _ => drf_lift fun _ _ => drf_lift fun _ _ => drf_lift fun _ _ => drf_lift fun _ _ =>
  drf_lift fun _ _ => drf_lift fun _ _ => drf_bind (parWrite_drf ..) fun _ _ => drf_bind (parWrite_drf ..) fun _ _ =>
  drf_bind (saveWeights_drf ..) fun _ _ => drf_pure _

theorem saveCsrTo_drf (T lb ob : Nat) (wgt : Bool) (cw : Codec W) (c : Csr W) (f : WFile) : (dSaveCsrTo T lb ob wgt cw c f).drf :=
  drf_lift fun _ _ => drf_lift fun _ _ => drf_lift fun _ _ => drf_lift fun _ _ => drf_lift fun _ _ => drf_lift fun _ _ =>
  drf_lift fun _ _ => drf_bind (parWrite_drf ..) fun _ _ => drf_bind (parWrite_drf ..) fun _ _ => saveWeights_drf ..

theorem saveCsr_drf (T lb ob : Nat) (wgt : Bool) (cw : Codec W) (c : Csr W) : (dSaveCsr T lb ob wgt cw c).drf :=
  drf_lift fun _ _ => drf_bind (saveCsrTo_drf ..) fun _ _ => drf_pure _

theorem saveDiGraph_drf (T lb ob : Nat) (wgt : Bool) (cw : Codec W) (g : DiGraph W) : (dSaveDiGraph T lb ob wgt cw g).drf :=
  drf_lift fun _ _ => drf_lift fun _ _ => drf_bind (saveCsrTo_drf ..) fun _ _ => drf_bind (saveCsrTo_drf ..) fun _ _ => drf_pure _

theorem saveTensor_drf (T lb ob : Nat) (wgt : Bool) (cw : Codec W) (t : Tensor W) : (dSaveTensor T lb ob wgt cw t).drf :=
  drf_lift fun _ _ => drf_lift fun _ _ => drf_lift fun _ _ => drf_lift fun _ _ => drf_lift fun _ _ => drf_lift fun _ _ =>
  drf_lift fun _ _ => drf_bind (parWrite_drf ..) fun _ _ => drf_bind (saveWeights_drf ..) fun _ _ => drf_pure _

theorem parRead_drf (T : Nat) (μ : Mapping) (dst : List Byte) (n p : Nat) : (dParRead T μ dst n p).drf :=
  drf_lift fun _ h => drf_bind (drf_par (acc_store _) (no_race_chunks "v" h _)) fun _ _ => drf_pure _

theorem readArr_drf (T : Nat) (μ : Mapping) (k : Nat) (dec : List Byte → α) (n bytes p : Nat) :
    (dReadArr T μ k dec n bytes p).drf :=
  drf_any fun _ => drf_bind (parRead_drf ..) fun _ _ => drf_pure _

theorem readWeights_drf (T : Nat) (μ : Mapping) (wgt : Bool) (cw : Codec W) (m p : Nat) : (dReadWeights T μ wgt cw m p).drf := by
  unfold dReadWeights
  split
  · exact readArr_drf ..
  · trivial

theorem readBinCoo_drf (T lb ob : Nat) (wgt : Bool) (cw : Codec W) (μ : Mapping) (p : Nat) : (dReadBinCoo T lb ob wgt cw μ p).drf :=
  drf_lift fun _ _ => drf_lift fun _ _ => drf_lift fun _ _ => drf_lift fun _ _ => drf_lift fun _ _ => drf_lift fun _ _ =>
  drf_lift fun _ _ => drf_lift fun _ _ => drf_lift fun _ _ => drf_bind (readArr_drf ..) fun _ _ => drf_bind (readArr_drf ..) fun _ _ =>
  drf_bind (readWeights_drf ..) fun _ _ => drf_pure _

theorem readBinCsr_drf (T lb ob : Nat) (wgt : Bool) (cw : Codec W) (μ : Mapping) (p : Nat) : (dReadBinCsr T lb ob wgt cw μ p).drf :=
  drf_lift fun _ _ => drf_lift fun _ _ => drf_lift fun _ _ => drf_lift fun _ _ => drf_lift fun _ _ => drf_lift fun _ _ =>
  drf_lift fun _ _ => drf_lift fun _ _ => drf_lift fun _ _ => drf_bind (readArr_drf ..) fun _ _ => drf_bind (readArr_drf ..) fun _ _ =>
  drf_bind (readWeights_drf ..) fun _ _ => drf_pure _

theorem readBinTensor_drf (T lb ob : Nat) (wgt : Bool) (cw : Codec W) (μ : Mapping) (p : Nat) : (dReadBinTensor T lb ob wgt cw μ p).drf :=
  drf_lift fun _ _ => drf_lift fun _ _ => drf_lift fun _ _ => drf_lift fun _ _ => drf_lift fun _ _ => drf_lift fun _ _ =>
  drf_lift fun _ _ => drf_lift fun _ _ => drf_bind (readArr_drf ..) fun _ _ =>
  drf_bind (readWeights_drf ..) fun _ _ => drf_pure _

/-! ## Copies -/

theorem footCopy_free (arr : String) {e f : Nat} (hne : e ≠ f) (s1 : α) (s2 : β) :
    ∀ x ∈ footCopy arr e s1, ∀ y ∈ footCopy arr f s2, ¬ Conflict x y := by
  intro x hx y hy hc
  have := hc.2.1
  simp only [footCopy, List.mem_cons, List.not_mem_nil, or_false] at hx hy
  rcases hx with rfl | rfl <;> rcases hy with rfl | rfl <;> exact hne this

theorem copyLoop_drf (arr : String) (T k : Nat) (src dst : List α) : (dCopyLoop arr T k src dst).drf :=
  drf_choose fun its hits => drf_par (acc_copy _ _) (no_race_loop1 hits.all fun _ _ _ _ hne s1 s2 => footCopy_free arr hne s1 s2)

theorem copyWeights_drf (T : Nat) (wgt : Bool) (m : Nat) (w : List W) (junk : Nat → W) : (dCopyWeights T wgt m w junk).drf := by
  unfold dCopyWeights
  split
  · exact copyLoop_drf ..
  · trivial

theorem copyCoo_drf (T : Nat) (wgt : Bool) (c : Coo W) : (dCopyCoo T wgt c).drf := by
  refine drf_any fun j => drf_choose fun its hits => drf_bind ?_ fun _ _ => drf_bind (copyWeights_drf ..) fun _ _ => drf_pure _
  refine drf_par (acc_copy2 _ _) (no_race_loop hits.all fun e f _ _ hne a ha b hb s1 s2 x hx y hy => ?_)
  simp only [copyIter, List.mem_cons, List.not_mem_nil, or_false] at ha hb
  intro hc
  have h2 := hc.2.1
  rcases ha with rfl | rfl <;> rcases hb with rfl | rfl <;>
    simp only [footCopy, List.mem_cons, List.not_mem_nil, or_false] at hx hy <;>
    rcases hx with rfl | rfl <;> rcases hy with rfl | rfl <;> exact hne h2

theorem copyTensor_drf (ow T : Nat) (wgt : Bool) (t : Tensor W) : (dCopyTensor ow T wgt t).drf :=
  drf_lift fun _ _ => drf_any fun _ => drf_any fun _ => drf_bind (copyLoop_drf ..) fun _ _ => drf_bind (copyWeights_drf ..) fun _ _ => drf_pure _

theorem maxLabels_drf (ow T : Nat) (t : Tensor W) : (dMaxLabels ow T t).drf :=
  drf_choose fun _ _ => drf_touch (touch_own _ _) (drf_lift fun _ _ => drf_run _)

end Pigo
