import Verif.Lemmas.CrashLoad
import Verif.Lemmas.CrashStates
import Verif.Lemmas.Robust

/-!
# Interrupted saves: the contents behind the header are still blank
-/

namespace Pigo

open Spec

variable {W : Type}

/-! ## every state is torn -/

theorem stage_get (parts : List (List Byte)) (k i : Nat) :
    (stage parts.flatten.length (parts.take k))[i]? = (blank parts.flatten.length)[i]? ∨
    (stage parts.flatten.length (parts.take k))[i]? = parts.flatten[i]? := by
  have h : parts.flatten = (parts.take k).flatten ++ (parts.drop k).flatten := by
    rw [← List.flatten_append, List.take_append_drop]
  by_cases hi : i < (parts.take k).flatten.length
  · right
    rw [stage, List.getElem?_append_left hi, h, List.getElem?_append_left hi]
  · left
    rw [stage, List.getElem?_append_right (by omega), List.getElem?_drop]
    congr 1
    omega

/-- After the file has its size, every byte of it is still blank or already the one of the complete file. -/
theorem torn_of_during {parts : List (List Byte)} {k : Nat} {s : List Byte} (hn : 0 < parts.flatten.length)
    (h : Between (stage parts.flatten.length (parts.take k)) (stage parts.flatten.length (parts.take (k + 1))) s) : Torn parts.flatten s := by
  refine ⟨?_, fun i => ?_⟩
  · rw [h.1, stage_length hn, blank_length hn]
    have : parts.flatten = (parts.take k).flatten ++ (parts.drop k).flatten := by
      rw [← List.flatten_append, List.take_append_drop]
    rw [this, List.length_append]; omega
  · rcases h.2 i with h | h
    · rw [h]; exact stage_get parts k i
    · rw [h]; exact stage_get parts (k + 1) i

/-! ## states reached -/

theorem openO_any (old : List Byte) (n : Nat) : (openO old n).run.Any := R.Any.lift _
theorem wBytesO_any (bs : List Byte) (f : WFile) : (wBytesO bs f).run.Any := R.Any.lift _

theorem parWriteO_any (T : Nat) (v : List Byte) (n : Nat) (f : WFile) : (parWriteO T v n f).run.Any := parWrite_any ..

/-- The contents when a part has been written. -/
theorem wBytesO_last {f : WFile} {n : Nat} {done : List (List Byte)} (h : Done f n done) (bs : List Byte) (hs : done.flatten.length + bs.length ≤ n) :
    (wBytesO bs f).seen (stage n (done ++ [bs])) := by
  have hl : f.bytes.length = n := by rw [h.bytes, stage_length h.pos h.room]
  refine ⟨(blockActs f.fp bs).length, ?_⟩
  rw [List.take_length, run_block (List.Perm.refl _) f.bytes (by rw [h.fp, hl]; exact hs), stage_snoc, h.fp, h.bytes]

theorem saveCooO_header {old : List Byte} {T lb ob : Nat} {wgt : Bool} (cw : Codec W) {c : Coo W} (h : Spec.FitsCoo lb ob wgt cw c) :
    (saveCooO old T lb ob wgt cw c).seen (stage (Spec.cooFile lb ob wgt cw c).length ((Spec.cooParts lb ob wgt cw c).take 7)) := by
  have hl := cooBytes_length cw h
  have hn : (Spec.cooFile lb ob wgt cw c).length = cooSaveSize lb ob wgt cw c := by rw [← hl, cooBytes_eq]
  simp only [cooBytes, List.length_append, encLE_length, rawLE_length, h.x.1, h.y.1, weights_length cw h.w.1] at hl
  have hpos : 0 < cooSaveSize lb ob wgt cw c := by unfold cooSaveSize; omega
  rw [hn, ← cooPartsM_eq]
  unfold saveCooO
  refine Obs.seen_bind (openO_any ..) (openO_seg (old := old) hpos).1 (fun f hf => ?_)
  iterate 6 refine Obs.seen_bind (wBytesO_any ..) (wBytesO_seg hf _ (by simp only [List.flatten_append, List.flatten_singleton, List.flatten_nil, List.length_append, encLE_length, List.length_nil]; omega)).1 (fun f hf => ?_)
  exact .inl (wBytesO_last hf _ (by simp only [List.flatten_append, List.flatten_singleton, List.flatten_nil, List.length_append, encLE_length, List.length_nil]; omega))

theorem saveCsrO_header {old : List Byte} {T lb ob : Nat} {wgt : Bool} (cw : Codec W) {c : Csr W} (h : Spec.FitsCsr lb ob wgt cw c) :
    (saveCsrO old T lb ob wgt cw c).seen (stage (Spec.csrFile lb ob wgt cw c).length ((Spec.csrParts lb ob wgt cw c).take 7)) := by
  have hl := csrBytes_length cw h
  have hn : (Spec.csrFile lb ob wgt cw c).length = csrSaveSize lb ob wgt cw c := by rw [← hl, csrBytes_eq]
  have hpos := csrSaveSize_pos lb ob wgt cw c
  simp only [csrBytes, List.length_append, encLE_length, rawLE_length, h.offsets.1, h.endpoints.1, weights_length cw h.weights.1] at hl
  rw [hn, ← csrPartsM_eq]
  unfold saveCsrO
  refine Obs.seen_bind (openO_any ..) (openO_seg (old := old) hpos).1 (fun f hf => ?_)
  left
  unfold saveCsrToO
  iterate 6 refine Obs.seen_bind (wBytesO_any ..) (wBytesO_seg hf _ (by simp only [List.flatten_append, List.flatten_singleton, List.flatten_nil, List.length_append, encLE_length, List.length_nil]; omega)).1 (fun f hf => ?_)
  exact .inl (wBytesO_last hf _ (by simp only [List.flatten_append, List.flatten_singleton, List.flatten_nil, List.length_append, encLE_length, List.length_nil]; omega))

theorem saveTensorO_header {old : List Byte} {T lb ob : Nat} {wgt : Bool} (cw : Codec W) {t : Tensor W} (h : Spec.FitsTensor lb ob wgt cw t) :
    (saveTensorO old T lb ob wgt cw t).seen (stage (Spec.tensorFile lb ob wgt cw t).length ((Spec.tensorParts lb ob wgt cw t).take 6)) := by
  have hl := tensorBytes_length cw h
  have hn : (Spec.tensorFile lb ob wgt cw t).length = tensorSaveSize lb ob wgt cw t := by rw [← hl, tensorBytes_eq]
  simp only [tensorBytes, List.length_append, encLE_length, rawLE_length, wsize_length, h.c.1, weights_length cw h.w.1] at hl
  have hpos : 0 < tensorSaveSize lb ob wgt cw t := by unfold tensorSaveSize; omega
  rw [hn, ← tensorPartsM_eq]
  unfold saveTensorO
  refine Obs.seen_bind (openO_any ..) (openO_seg (old := old) hpos).1 (fun f hf => ?_)
  iterate 5 refine Obs.seen_bind (wBytesO_any ..) (wBytesO_seg hf _ (by simp only [List.flatten_append, List.flatten_singleton, List.flatten_nil, List.length_append, encLE_length, wsize_length, List.length_nil]; omega)).1 (fun f hf => ?_)
  exact .inl (wBytesO_last hf _ (by simp only [List.flatten_append, List.flatten_singleton, List.flatten_nil, List.length_append, encLE_length, wsize_length, List.length_nil]; omega))

/-! ## zeros -/

theorem decLE_zeros : ∀ k, decLE (List.replicate k 0) = 0
  | 0 => rfl
  | k + 1 => by rw [List.replicate_succ, decLE, decLE_zeros k]; rfl

theorem blank_field {n : Nat} {a : List Byte} {p k : Nat} (h : p + k < n) (hp : a.length ≤ p) :
    fld (a ++ (blank n).drop a.length) p k = List.replicate k 0 := by
  apply List.ext_getElem?
  intro i
  rw [fld_get]
  by_cases hi : i < k
  · rw [if_pos hi, List.getElem?_append_right (by omega), List.getElem?_drop, blank,
      List.getElem?_append_left (by rw [List.length_replicate]; omega), List.getElem?_replicate, List.getElem?_replicate,
      if_pos (by omega), if_pos hi]
  · rw [if_neg hi, List.getElem?_replicate, if_neg hi]

theorem decArr_zeros (k n : Nat) : decArr k decLE n (List.replicate (k * n) 0) = List.replicate n 0 := by
  unfold decArr
  apply List.ext_getElem?
  intro i
  rw [List.getElem?_map, List.getElem?_replicate]
  by_cases hi : i < n
  · rw [List.getElem?_range hi, if_pos hi]
    simp only [Option.map_some, Option.some.injEq]
    rw [List.drop_replicate, List.take_replicate, decLE_zeros]
  · rw [if_neg hi, List.getElem?_eq_none (by simp; omega)]
    rfl

/-! ## the dispatch -/

theorem readCoo_bin_throws {P : Params W} {cfg : Cfg} {μ : Mapping} {fn : List Byte} {ft : FileType} (hf : usedType μ fn 0 ft = .ok .cooBin)
    (h : (readBinCoo P.T P.lb P.ob P.wk.wgt P.cw μ 0).Throws) : (readCoo P cfg μ fn 0 ft).Throws := by
  unfold readCoo
  refine R.Throws.step hf ?_
  rw [if_pos (by simp)]
  refine R.Throws.bind_left ?_
  unfold readCooFmt
  rw [if_neg (by simp), if_neg (by simp)]
  exact h

theorem readCoo_bin_all {P : Params W} {cfg : Cfg} {μ : Mapping} {fn : List Byte} {ft : FileType} (hf : usedType μ fn 0 ft = .ok .cooBin)
    {Q : Coo W → Prop} (h : (readBinCoo P.T P.lb P.ob P.wk.wgt P.cw μ 0).All (fun r => Q r.1)) : (readCoo P cfg μ fn 0 ft).All Q := by
  unfold readCoo
  refine R.All.step hf ?_
  rw [if_pos (by simp)]
  unfold readCooFmt
  rw [if_neg (by simp), if_neg (by simp)]
  exact R.All.bind h (fun r hr => R.All.pure hr)

theorem readCsr_bin {P : Params W} {μ : Mapping} {fn : List Byte} {ft : FileType} (hf : usedType μ fn 0 ft = .ok .csrBin) :
    ((readBinCsr P.T P.lb P.ob P.wk.wgt P.cw μ 0).Throws → (readCsr P μ fn 0 ft).Throws) ∧
    ∀ Q, (readBinCsr P.T P.lb P.ob P.wk.wgt P.cw μ 0).All Q → (readCsr P μ fn 0 ft).All Q := by
  unfold readCsr
  refine ⟨fun h => R.Throws.step hf ?_, fun Q h => R.All.step hf ?_⟩ <;>
  · rw [if_neg (by simp), if_pos rfl]
    exact h

/-! ## text without digits -/

/-- Text without a digit is loaded as no entries. -/
theorem readEl_no_digits {μ : Mapping} {e : Nat} {s : List Byte} (v : View μ e s) (hr : Readable μ e) (hs : ∀ c ∈ s, isDigit c = false)
    (lw ow : Nat) (cfg : Cfg) (wk : WKind W) {T : Nat} (hT : 0 < T) (out : M (Coo W)) (hrun : ReadEl μ lw ow cfg wk T (rd e s) out) :
    out = .ok (cooOf lw cfg wk.wgt []) := by
  have hnil : ∀ tid, startL s T tid = [] := by
    intro tid
    cases h : startL s T tid with
    | nil => rfl
    | cons c t =>
      have h1 := startL_digit c t h
      have h2 := hs c ((startL_suffix s T tid).subset (by rw [h]; exact List.mem_cons_self ..))
      rw [h1] at h2; cases h2
  have hreg : ∀ tid, tid < T → elRegion μ (rd e s) T tid = .ok (rd e []) := by
    intro tid ht
    obtain ⟨R, h1, h2, _, _⟩ := elRegion_any v hr ht
    rw [hnil, hnil, List.append_nil] at h1
    subst h1
    rw [h2, hnil]
    rfl
  have hplan := plan_of_segs (μ := μ) (lw := lw) (ow := ow) (wk := wk) cfg hT (rd e s) (fun _ => rd e []) (fun _ => []) hreg
    (fun tid _ => by simp [elCount, rd, whileGood, Reader.good, total, prims, ok_bind]) (fun tid _ => by simp [elSet, rd, whileGood, Reader.good, ok_bind])
  have hflat : ((List.range T).map (fun _ => ([] : List (Nat × Nat × W)))).flatten = [] := by simp
  have := exec_of_plan cfg _ hplan (by rw [hflat]; simp [total, prims, Nat.two_pow_pos]) out hrun
  rw [hflat] at this
  exact this

theorem blank_no_digits (n : Nat) : ∀ c ∈ blank n, isDigit c = false := by
  intro c hc
  unfold blank at hc
  rcases List.mem_append.mp hc with h | h
  · rw [(List.mem_replicate.mp h).2]; decide
  · rw [List.mem_singleton.mp h]; decide

end Pigo
