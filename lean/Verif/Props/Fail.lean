import Verif.Lemmas.Fail
import Verif.Props.Write
import Verif.Props.Binary

/-!
# C91, C92: failures reach the caller; memory that runs out

`fRead… E` are the loaders in the environment `E`: compiled with OpenMP or not (`E.omp`), memory may run out or not (`E.short`).  A way to end is an
outcome (`.out`) or the end of the process (`.ended`), together with the blocks left.
-/

namespace Pigo

open Spec

variable {α W : Type}

/-! ### The weight readers -/

theorem wNone_silent : wNone.Silent := ⟨wNone_calm, fun _ _ => .ok _⟩

theorem wUint_silent (w : Nat) : (wUint w).Silent := ⟨wUint_calm w, fun _ _ => (OobOnly.moveToNextInt ..).calm⟩

theorem wSint_silent (w : Nat) : (wSint w).Silent := by
  refine ⟨wSint_calm w, fun μ r => ?_⟩
  show Calm (moveToNextSignedInt μ r)
  unfold moveToNextSignedInt
  exact .bind (OobOnly.get ..).calm fun b => .bind (OobOnly.scan ..).calm fun r => .bind (OobOnly.skipIfCom ..).calm fun r =>
    (OobOnly.firstN ..).calm

theorem wFp_silent {V : Type} (ops : FpOps V) : (wFp ops).Silent :=
  ⟨wFp_calm ops, fun μ r => .bind (OobOnly.scan ..).calm fun r => (OobOnly.scan ..).calm⟩

/-! ### C91 -/

/-- **C91 (loading)**: while memory suffices, no load ends the process, with or without OpenMP: its ways to end are the outcomes of the loaders of C84, in
particular every failure is an exception that reaches the caller. -/
theorem C91_load (E : Env) (hs : E.short = false) (P : Params W) (hw : P.wk.Silent) (s : Storage) (st : Stor) (cfg : Cfg) (μ : Mapping) (fn : List Byte)
    (ft : FileType) :
    (∀ z L, fReadCoo E s P cfg μ fn 0 ft z L ↔ ∃ o, z = .out o ∧ tReadCoo s P cfg μ fn 0 ft o L) ∧
    (∀ z L, fReadCsr E st P μ fn 0 ft z L ↔ ∃ o, z = .out o ∧ tReadCsr st P μ fn 0 ft o L) ∧
    (∀ z L, fReadDiGraph E st P μ fn ft z L ↔ ∃ o, z = .out o ∧ tReadDiGraph st P μ fn ft o L) ∧
    (∀ z L, fReadMatrix E st P μ fn z L ↔ ∃ o, z = .out o ∧ tReadMatrix st P μ fn o L) ∧
    (∀ z L, fReadTensor E s P μ fn 0 ft z L ↔ ∃ o, z = .out o ∧ tReadTensor s P μ fn 0 ft o L) :=
  ⟨(fReadCoo_tracks s hw cfg μ fn 0 ft).sim hs, (fReadCsr_tracks st hw μ fn 0 ft).sim hs, (fReadDiGraph_tracks st hw μ fn ft).sim hs,
    (fReadMatrix_tracks st hw μ fn).sim hs, (fReadTensor_tracks s hw μ fn 0 ft).sim hs⟩

theorem FR.run_bind_run {β : Type} (p : R α) (k : α → R β) : (FR.run p >>= fun a => FR.run (k a)) = FR.run (p >>= k) := by
  funext z L
  apply propext
  constructor
  · rintro ⟨z1, L1, ⟨o, rfl, ho, rfl⟩, hz⟩
    cases o with
    | error f => exact ⟨_, hz.1, ⟨_, ho, rfl⟩, hz.2⟩
    | ok a =>
      obtain ⟨L2, ⟨o2, rfl, h2, rfl⟩, rfl⟩ := hz
      exact ⟨_, rfl, ⟨_, ho, h2⟩, by cases o2 <;> rfl⟩
  · rintro ⟨o, rfl, ⟨o1, ho, h⟩, rfl⟩
    refine ⟨.out o1, [], ⟨_, rfl, ho, rfl⟩, ?_⟩
    cases o1 with
    | error f => exact ⟨by rw [h], rfl⟩
    | ok a => exact ⟨[], ⟨_, rfl, h, rfl⟩, by cases o <;> rfl⟩

/-- The body of the writers as one computation: both passes with the construction of the file between them, which may fail. -/
theorem fTwoPass_eq (E : Env) (fails : Bool) (size : Nat → M Nat) (ascii : Nat → Nat → M (List (Nat × Byte) × Nat)) (m T : Nat) :
    fTwoPass E fails size ascii m T = (do
      let _ ← FR.vec E
      FR.region E (FR.run (do
        let its ← R.choose (OmpStatic m T)
        let sizes ← R.lift (mapE (sizeLoopE size) its)
        let f ← R.lift (openFail fails ((posOffsets sizes).getD its.length 0))
        let threads ← R.lift (mapE (fun p : Nat × List Nat => writeLoop ascii (f.fp + p.1) p.2) ((posOffsets sizes).zip its))
        R.par storeAct threads f.bytes))) := by
  unfold fTwoPass
  simp only [FR.run_bind_run]

/-- A region around a computation that leaves nothing, after a vector. -/
theorem vec_region (E : Env) (hs : E.short = false) (p : R α) (z : Fin α) (L : List Blk) :
    (FR.vec E >>= fun _ => FR.region E (FR.run p)) z L ↔ L = [] ∧
      ((z = .ended ∧ E.omp = true ∧ ∃ o, p o ∧ Threw o) ∨ (∃ o, z = .out o ∧ p o ∧ (E.omp = true → ¬ Threw o))) := by
  have hout : ∀ o : M α, (Fin.out o = .out (.error .error) ∨ Fin.out o = .out (.error .nyi)) ↔ Threw o := by
    intro o; simp [Threw]
  constructor
  · rintro ⟨z1, L1, ⟨rfl, (rfl | ⟨hs', _⟩)⟩, hz⟩
    · obtain ⟨L2, ⟨z', L', ⟨o, rfl, ho, rfl⟩, h⟩, rfl⟩ := hz
      rcases h with ⟨⟨hom, ht⟩, rfl, rfl⟩ | ⟨ht, rfl, rfl⟩
      · exact ⟨rfl, .inl ⟨rfl, hom, o, ho, (hout o).mp ht⟩⟩
      · refine ⟨by cases o <;> rfl, .inr ⟨o, rfl, ho, fun hom h => ht ⟨hom, (hout o).mpr h⟩⟩⟩
    · rw [hs] at hs'; cases hs'
  · rintro ⟨rfl, (⟨rfl, hom, o, ho, ht⟩ | ⟨o, rfl, ho, ht⟩)⟩
    · exact ⟨.out (.ok ()), [], ⟨rfl, .inl rfl⟩, [], ⟨_, _, ⟨o, rfl, ho, rfl⟩, .inl ⟨⟨hom, (hout o).mpr ht⟩, rfl, rfl⟩⟩, rfl⟩
    · exact ⟨.out (.ok ()), [], ⟨rfl, .inl rfl⟩, [], ⟨_, _, ⟨o, rfl, ho, rfl⟩, .inr ⟨fun h => ht h.1 ((hout o).mp h.2), rfl, rfl⟩⟩,
        by cases o <;> rfl⟩

/-- The writers when the file can be created. -/
theorem fWriteCoo_ends (E : Env) (hs : E.short = false) (T : Nat) (wt : WText W) (c : Coo W) (z : Fin (List Byte)) (L : List Blk) :
    fWriteCoo E false T wt c z L ↔ L = [] ∧
      ((z = .ended ∧ E.omp = true ∧ ∃ o, (writeCoo T wt c).Out o ∧ Threw o) ∨
       (∃ o, z = .out o ∧ (writeCoo T wt c).Out o ∧ (E.omp = true → ¬ Threw o))) := by
  rw [fWriteCoo, fTwoPass_eq]
  exact vec_region E hs (writeCoo T wt c) z L

theorem fWriteTensor_ends (E : Env) (hs : E.short = false) (T ob : Nat) (wt : WText W) (t : Tensor W) (z : Fin (List Byte)) (L : List Blk) :
    fWriteTensor E false T ob wt t z L ↔ L = [] ∧
      ((z = .ended ∧ E.omp = true ∧ ∃ o, (writeTensor T ob wt t).Out o ∧ Threw o) ∨
       (∃ o, z = .out o ∧ (writeTensor T ob wt t).Out o ∧ (E.omp = true → ¬ Threw o))) := by
  rw [fWriteTensor, fTwoPass_eq]
  exact vec_region E hs (writeTensor T ob wt t) z L

/-- **C91 (saving)**: a save never ends the process: if the file cannot be created the exception reaches the caller, else it ends as `p`. -/
theorem C91_save (fails : Bool) (p : R α) (z : Fin α) (L : List Blk) :
    fSave fails p z L ↔ L = [] ∧ if fails = true then z = .out (.error .error) else ∃ o, z = .out o ∧ p.Out o := by
  unfold fSave
  rw [FR.run_bind_run]
  cases fails with
  | true =>
    constructor
    · rintro ⟨o, rfl, ⟨o1, ho, h⟩, rfl⟩
      have ho : o1 = .error .error := ho
      subst ho
      exact ⟨rfl, by simp [show o = .error .error from h]⟩
    · rintro ⟨rfl, h⟩
      rw [if_pos rfl] at h
      exact ⟨_, h, ⟨.error .error, rfl, rfl⟩, rfl⟩
  | false =>
    constructor
    · rintro ⟨o, rfl, ⟨o1, ho, h⟩, rfl⟩
      have ho : o1 = .ok () := ho
      subst ho
      exact ⟨rfl, o, rfl, h⟩
    · rintro ⟨rfl, h⟩
      rw [if_neg (by simp)] at h
      obtain ⟨o, rfl, h⟩ := h
      exact ⟨_, rfl, ⟨.ok (), rfl, h⟩, rfl⟩

/-- **C91 (writing, without OpenMP)**: a text write ends as `writeCoo`/`writeTensor` says; exceptions reach the caller. -/
theorem C91_write_serial (T ob : Nat) (wt : WText W) (c : Coo W) (t : Tensor W) (z : Fin (List Byte)) (L : List Blk) :
    (fWriteCoo ⟨false, false⟩ false T wt c z L ↔ L = [] ∧ ∃ o, z = .out o ∧ (writeCoo T wt c).Out o) ∧
    (fWriteTensor ⟨false, false⟩ false T ob wt t z L ↔ L = [] ∧ ∃ o, z = .out o ∧ (writeTensor T ob wt t).Out o) := by
  rw [fWriteCoo_ends _ rfl, fWriteTensor_ends _ rfl]
  simp

/-- **C91 (writing)**: with OpenMP as well, a COO with entries is written without ending the process when the file can be created: the file has the
lines of the entries. -/
theorem C91_write_ok (E : Env) (hs : E.short = false) (T : Nat) (wt : WText W) (txt : W → List Byte) (ok : W → Prop) (hp : Printer wt txt ok) (c : Coo W)
    (es : List (Nat × Nat × W)) (h : Holds c wt.wgt es) (hok : ∀ e ∈ es, ok e.2.2) (hne : es ≠ []) (z : Fin (List Byte)) (L : List Blk)
    (hz : fWriteCoo E false T wt c z L) : L = [] ∧ z = .out (.ok (es.flatMap (fun e => Spec.cooLine wt.wgt txt e))) := by
  have hall := C46_coo_write T wt txt ok hp c es h hok hne
  obtain ⟨hL, ⟨_, _, o, ho, ht⟩ | ⟨o, rfl, ho, _⟩⟩ := (fWriteCoo_ends E hs T wt c z L).mp hz
  · obtain ⟨bs, rfl, _⟩ := hall o ho
    rcases ht with ht | ht <;> cases ht
  · obtain ⟨bs, rfl, rfl⟩ := hall o ho
    exact ⟨hL, rfl⟩

/-- C91, tensors. -/
theorem C91_write_tensor_ok (E : Env) (hs : E.short = false) (T ob : Nat) (wt : WText W) (txt : W → List Byte) (ok : W → Prop) (hp : Printer wt txt ok)
    (t : Tensor W) (es : List (List Nat × W)) (h : HoldsT t wt.wgt es) (ho : 0 < t.order) (hfit : t.order * t.m < 256 ^ ob) (hok : ∀ e ∈ es, ok e.2)
    (hne : es ≠ []) (z : Fin (List Byte)) (L : List Blk) (hz : fWriteTensor E false T ob wt t z L) :
    L = [] ∧ z = .out (.ok (es.flatMap (fun e => Spec.tensorLine wt.wgt txt e))) := by
  have hall := C48_tensor_write T ob wt txt ok hp t es h ho hfit hok hne
  obtain ⟨hL, ⟨_, _, o, ho, ht⟩ | ⟨o, rfl, ho, _⟩⟩ := (fWriteTensor_ends E hs T ob wt t z L).mp hz
  · obtain ⟨bs, rfl, _⟩ := hall o ho
    rcases ht with ht | ht <;> cases ht
  · obtain ⟨bs, rfl, rfl⟩ := hall o ho
    exact ⟨hL, rfl⟩

/-- **C91 violated**: with OpenMP, writing a COO without entries ends the process, with any number of threads: `max_size` is 0 and the
constructor of `File` throws inside the parallel region. -/
theorem C91_write_empty_violated (T : Nat) (hT : 0 < T) (wt : WText W) (c : Coo W) (h : c.m = 0) :
    (∃ L, fWriteCoo ⟨true, false⟩ false T wt c .ended L) ∧ ∀ z L, fWriteCoo ⟨true, false⟩ false T wt c z L → z = .ended := by
  obtain ⟨o, ho⟩ := (C46_write_runs T hT 8 wt c { c := [], w := [], order := 0, m := 0 }).1
  have he := C50_write_empty_violated T wt c h
  refine ⟨⟨[], (fWriteCoo_ends _ rfl T wt c _ _).mpr ⟨rfl, .inl ⟨rfl, rfl, o, ho, .inl (he o ho)⟩⟩⟩, ?_⟩
  intro z L hz
  obtain ⟨_, ⟨rfl, _⟩ | ⟨o, rfl, ho, ht⟩⟩ := (fWriteCoo_ends _ rfl T wt c z L).mp hz
  · rfl
  · exact absurd (.inl (he o ho)) (ht rfl)

/-- C91 violated, tensors: the same for a tensor without entries. -/
theorem C91_write_tensor_empty_violated (T ob : Nat) (hT : 0 < T) (wt : WText W) (t : Tensor W) (h : t.m = 0) :
    (∃ L, fWriteTensor ⟨true, false⟩ false T ob wt t .ended L) ∧ ∀ z L, fWriteTensor ⟨true, false⟩ false T ob wt t z L → z = .ended := by
  obtain ⟨o, ho⟩ := (C46_write_runs T hT ob wt { x := [], y := [], w := [], n := 0, m := 0, nrows := 0, ncols := 0 } t).2
  have he : ∀ o, (writeTensor T ob wt t).Out o → o = .error .error := by
    rintro o ⟨o', ⟨its, hits, rfl⟩, ho⟩
    have hn : ∀ l ∈ its, l = [] := by
      have := hits.chunks
      rw [h, List.range_zero] at this
      simpa using this
    have hs : mapE (sizeLoopE (tensorLineSize ob wt t)) its = .ok (its.map (fun _ => 0)) :=
      mapE_mem_ok (fun l hl => by rw [hn l hl]; rfl)
    obtain ⟨o1, h1, ho⟩ := ho
    cases h1
    rw [hs] at ho
    obtain ⟨o2, h2, ho⟩ := ho
    cases h2
    have htot := total_ok (its.map (fun _ => 0)) 0
    rw [List.length_map] at htot
    have hz : (its.map (fun _ => 0)).sum = 0 := by
      clear hs ho hits htot hn
      induction its with
      | nil => rfl
      | cons a its ih => simp [ih]
    simp only [posOffsets] at ho
    rw [htot, hz] at ho
    exact ho
  refine ⟨⟨[], (fWriteTensor_ends _ rfl T ob wt t _ _).mpr ⟨rfl, .inl ⟨rfl, rfl, o, ho, .inl (he o ho)⟩⟩⟩, ?_⟩
  intro z L hz
  obtain ⟨_, ⟨rfl, _⟩ | ⟨o, rfl, ho, ht⟩⟩ := (fWriteTensor_ends _ rfl T ob wt t z L).mp hz
  · rfl
  · exact absurd (.inl (he o ho)) (ht rfl)

/-! ### An output file that cannot be created -/

/-- The writers when the file cannot be created, and the sizes of the lines can be computed. -/
theorem fTwoPass_fails (E : Env) (hs : E.short = false) (size : Nat → M Nat) (ascii : Nat → Nat → M (List (Nat × Byte) × Nat)) (m T : Nat) (hT : 0 < T)
    (hsz : ∀ e, e < m → ∃ k, size e = .ok k) (z : Fin (List Byte)) (L : List Blk) :
    fTwoPass E true size ascii m T z L ↔ L = [] ∧ z = if E.omp = true then .ended else .out (.error .error) := by
  have hl : ∀ es : List Nat, (∀ e ∈ es, e < m) → ∃ k, sizeLoopE size es = .ok k := by
    intro es
    induction es with
    | nil => exact fun _ => ⟨_, rfl⟩
    | cons e es ih =>
      intro he
      obtain ⟨k, hk⟩ := hsz e (he e (List.mem_cons_self ..))
      obtain ⟨k', hk'⟩ := ih (fun a ha => he a (List.mem_cons_of_mem _ ha))
      exact ⟨_, by rw [sizeLoopE, hk, ok_bind, hk', ok_bind]⟩
  have hm : ∀ its : List (List Nat), (∀ es ∈ its, ∀ e ∈ es, e < m) → ∃ ks, mapE (sizeLoopE size) its = .ok ks := by
    intro its
    induction its with
    | nil => exact fun _ => ⟨_, rfl⟩
    | cons es its ih =>
      intro h
      obtain ⟨k, hk⟩ := hl es (h es (List.mem_cons_self ..))
      obtain ⟨ks, hks⟩ := ih (fun a ha => h a (List.mem_cons_of_mem _ ha))
      exact ⟨_, by rw [mapE, hk, ok_bind, hks, ok_bind]⟩
  have hm' : ∀ its, OmpStatic m T its → ∃ ks, mapE (sizeLoopE size) its = .ok ks := by
    intro its hits
    refine hm its fun es hes e he => ?_
    have : e ∈ its.flatten := List.mem_flatten.mpr ⟨es, hes, he⟩
    rw [hits.chunks, List.mem_range] at this
    exact this
  rw [fTwoPass_eq, vec_region E hs]
  have key : ∀ o, (do
        let its ← R.choose (OmpStatic m T)
        let sizes ← R.lift (mapE (sizeLoopE size) its)
        let f ← R.lift (openFail true ((posOffsets sizes).getD its.length 0))
        let threads ← R.lift (mapE (fun p : Nat × List Nat => writeLoop ascii (f.fp + p.1) p.2) ((posOffsets sizes).zip its))
        R.par storeAct threads f.bytes : R (List Byte)) o ↔ o = .error .error := by
    intro o
    constructor
    · rintro ⟨o', ⟨its, hits, rfl⟩, o1, h1, ho⟩
      cases h1
      obtain ⟨ks, hks⟩ := hm' its hits
      rw [hks] at ho
      obtain ⟨o2, h2, ho⟩ := ho
      cases h2
      exact ho
    · rintro rfl
      obtain ⟨ks, hks⟩ := hm' _ (OmpStatic.one m T hT)
      exact ⟨_, ⟨_, OmpStatic.one m T hT, rfl⟩, .ok ks, hks.symm, .error .error, rfl, rfl⟩
  simp only [key]
  cases E.omp
  · simp [Threw]
  · simp only [Threw, true_and, if_true]
    constructor
    · rintro ⟨rfl, ⟨rfl, _⟩ | ⟨o, rfl, rfl, h⟩⟩
      · exact ⟨rfl, rfl⟩
      · exact absurd (.inl rfl) (h trivial)
    · rintro ⟨rfl, rfl⟩
      exact ⟨rfl, .inl ⟨rfl, _, rfl, .inl rfl⟩⟩

/-- **C91 violated**: with OpenMP, when the output file cannot be created, `write` of any COO ends the process instead of reporting the `Error` of
`File` to the caller; without OpenMP the caller gets the exception. -/
theorem C91_write_uncreatable_violated (E : Env) (hs : E.short = false) (T : Nat) (hT : 0 < T) (wt : WText W) (txt : W → List Byte) (ok : W → Prop)
    (hp : Printer wt txt ok) (c : Coo W) (es : List (Nat × Nat × W)) (h : Holds c wt.wgt es) (hok : ∀ e ∈ es, ok e.2.2) (z : Fin (List Byte))
    (L : List Blk) : fWriteCoo E true T wt c z L ↔ L = [] ∧ z = if E.omp = true then .ended else .out (.error .error) := by
  refine fTwoPass_fails E hs _ _ _ T hT (fun e he => ?_) z L
  rw [h.m] at he
  have hg := List.getElem?_eq_getElem he
  exact ⟨_, (cooLine_ok h (fun hg p hpm => hp.write (hok p hpm) hg) hg).size⟩

/-- C91 violated, tensors. -/
theorem C91_write_tensor_uncreatable_violated (E : Env) (hs : E.short = false) (T ob : Nat) (hT : 0 < T) (wt : WText W) (txt : W → List Byte)
    (ok : W → Prop) (hp : Printer wt txt ok) (t : Tensor W) (es : List (List Nat × W)) (h : HoldsT t wt.wgt es) (ho : 0 < t.order)
    (hfit : t.order * t.m < 256 ^ ob) (hok : ∀ e ∈ es, ok e.2) (z : Fin (List Byte)) (L : List Blk) :
    fWriteTensor E true T ob wt t z L ↔ L = [] ∧ z = if E.omp = true then .ended else .out (.error .error) := by
  refine fTwoPass_fails E hs _ _ _ T hT (fun e he => ?_) z L
  rw [h.m] at he
  have hg := List.getElem?_eq_getElem he
  exact ⟨_, (tensorLine_ok h ho hfit (fun hg p hpm => hp.write (hok p hpm) hg) hg).size⟩

/-- The hypotheses are met: a weighted COO and a tensor of order 3, written by two threads. -/
example : Holds wrCoo true [(0, 5, -7), (12, 0, 0), (7, 100, 31)] ∧ HoldsT wrTensor true [([0, 1, 2], 1), ([30, 4, 5], 20)] ∧ 0 < wrTensor.order ∧
    wrTensor.order * wrTensor.m < 256 ^ 1 ∧ OmpStatic wrCoo.m 2 [[0, 1], [2]] :=
  ⟨⟨rfl, rfl, rfl, fun _ => rfl⟩, ⟨rfl, by decide, rfl, fun _ => rfl⟩, by decide, by decide, ⟨rfl, by decide⟩⟩

end Pigo
