import Verif.Lemmas.SignedSmall3
import Verif.Props.Signed
import Verif.Props.GraphFile
import Verif.Props.Tensor

/-!
# Signed label and ordinal types: `.graph` files, tensors, and files without large numbers

C98.  `sReadCoo`, `sReadCsr` and `sReadTensor` are the constructors with signed label and ordinal types; a signed overflow is the
outcome `.error .overflow`.  Used on arbitrary bytes: nothing is assumed of the format of the file, except where an entry format
or `GraphOk` is given.
-/

namespace Pigo

variable {W : Type}

theorem sReadCsr_graph {P : Params W} {μ : Mapping} {fn : List Byte} {p : Nat} {ft : FileType} (ht : usedType μ fn p ft = .ok .graph) :
    sReadCsr P μ fn p ft = (if P.wk.wgt then R.lift (.error .nyi) else
      sReadGraph (8 * P.lb) (8 * P.ob) P.T μ (readerAt μ p) >>= fun c => pure (c, p)) := by
  unfold sReadCsr
  rw [ht, liftOk, if_neg (by decide), if_pos rfl]

theorem readCsr_graph {P : Params W} {μ : Mapping} {fn : List Byte} {p : Nat} {ft : FileType} (ht : usedType μ fn p ft = .ok .graph) :
    readCsr P μ fn p ft = (if P.wk.wgt then R.lift (.error .nyi) else
      readGraph (8 * P.lb) (8 * P.ob) P.T μ (readerAt μ p) >>= fun c => pure (c, p)) := by
  unfold readCsr
  rw [ht, liftOk, if_neg (by decide), if_neg (by decide), if_pos rfl]

theorem sReadCsr_text {P : Params W} {μ : Mapping} {fn : List Byte} {p : Nat} {ft t : FileType} (ht : usedType μ fn p ft = .ok t)
    (htext : t = .matrixMarket ∨ t = .edgeList) :
    sReadCsr P μ fn p ft = sReadCooText P {} μ p t >>= fun coo => sConvertCoo (8 * P.lb) (8 * P.ob) P.T P.wk.wgt coo >>= fun c => pure (c, p) := by
  unfold sReadCsr
  rw [ht, liftOk, if_pos htext]

theorem readCsr_text {P : Params W} {μ : Mapping} {fn : List Byte} {p : Nat} {ft t : FileType} (ht : usedType μ fn p ft = .ok t)
    (htext : t = .matrixMarket ∨ t = .edgeList) :
    readCsr P μ fn p ft = readCooFmt P {} μ p t >>= fun q => convertCoo (8 * P.lb) (8 * P.ob) P.T P.wk.wgt q.1 >>= fun c => pure (c, q.2) := by
  unfold readCsr
  rw [ht, liftOk, if_pos (by rcases htext with h | h <;> simp [h])]

theorem sReadCoo_graph {P : Params W} {cfg : Cfg} {μ : Mapping} {fn : List Byte} {p : Nat} {ft : FileType} (ht : usedType μ fn p ft = .ok .graph) :
    sReadCoo P cfg μ fn p ft = sReadCsr P μ fn p .graph >>= fun q => sConvertCsr (8 * P.ob) P.T P.stor cfg P.wk.wgt q.1 := by
  unfold sReadCoo
  rw [ht, liftOk, if_neg (by decide), if_pos rfl]

theorem readCoo_graph {P : Params W} {cfg : Cfg} {μ : Mapping} {fn : List Byte} {p : Nat} {ft : FileType} (ht : usedType μ fn p ft = .ok .graph) :
    readCoo P cfg μ fn p ft = readCsr P μ fn p .graph >>= fun q => convertCsr (8 * P.ob) P.T P.stor cfg P.wk.wgt q.1 := by
  unfold readCoo
  rw [ht, liftOk, if_neg (by decide), if_pos (by decide)]

theorem sReadCoo_text {P : Params W} {cfg : Cfg} {μ : Mapping} {fn : List Byte} {p : Nat} {ft t : FileType} (ht : usedType μ fn p ft = .ok t)
    (htext : t = .matrixMarket ∨ t = .edgeList) : sReadCoo P cfg μ fn p ft = sReadCooText P cfg μ p t := by
  unfold sReadCoo
  rw [ht, liftOk, if_pos htext]

theorem readCoo_textS {P : Params W} {cfg : Cfg} {μ : Mapping} {fn : List Byte} {p : Nat} {ft t : FileType} (ht : usedType μ fn p ft = .ok t)
    (htext : t = .matrixMarket ∨ t = .edgeList) : readCoo P cfg μ fn p ft = readCooFmt P cfg μ p t >>= fun q => pure q.1 := by
  unfold readCoo
  rw [ht, liftOk, if_pos (by rcases htext with h | h <;> simp [h])]

/-! ## arbitrary input: overflow, or as with unsigned types -/

/-- C98: `CSR(fn)` of any `.graph` file with signed types overflows or does what it does with the unsigned types. -/
theorem C98_refines_csr_graph (P : Params W) (μ : Mapping) (fn : List Byte) (p : Nat) (ft : FileType)
    (ht : usedType μ fn p ft = .ok .graph) (o : M (Csr W × Nat))
    (h : (sReadCsr P μ fn p ft).Out o) : o = .error .overflow ∨ (readCsr P μ fn p ft).Out o := by
  have hs : RSim (sReadCsr P μ fn p ft) (readCsr P μ fn p ft) := by
    rw [sReadCsr_graph ht, readCsr_graph ht]
    split
    · exact RSim.refl _
    · exact (sReadGraph_sim _ _ _ _ _).bind (fun _ => RSim.refl _)
  exact hs o h

/-- C98: the same for `COO(fn)` of a `.graph` file. -/
theorem C98_refines_coo_graph (P : Params W) (cfg : Cfg) (μ : Mapping) (fn : List Byte) (p : Nat) (ft : FileType)
    (ht : usedType μ fn p ft = .ok .graph) (o : M (Coo W))
    (h : (sReadCoo P cfg μ fn p ft).Out o) : o = .error .overflow ∨ (readCoo P cfg μ fn p ft).Out o := by
  have hs : RSim (sReadCoo P cfg μ fn p ft) (readCoo P cfg μ fn p ft) := by
    rw [sReadCoo_graph ht, readCoo_graph ht]
    exact RSim.bind (fun o ho => C98_refines_csr_graph P μ fn p .graph rfl o ho) (fun _ => sConvertCsr_sim _ _ _ _ _ _)
  exact hs o h

/-- C98: `Tensor(fn)` of any file with signed types overflows or does what it does with the unsigned types. -/
theorem C98_refines_tensor (P : Params W) (μ : Mapping) (fn : List Byte) (p : Nat) (ft : FileType) (o : M (Tensor W))
    (h : (sReadTensor P μ fn p ft).Out o) : o = .error .overflow ∨ (readTensor P μ fn p ft).Out o := by
  have hs : RSim (sReadTensor P μ fn p ft) (readTensor P μ fn p ft) := by
    unfold sReadTensor readTensor
    refine RSim.same (fun t => ?_)
    split
    · exact sReadTensorEl_sim _ _ _ _ _ _
    · exact RSim.refl _
  exact hs o h

/-- C98: `max_labels()` with signed types overflows or does what it does with the unsigned types. -/
theorem C98_refines_max_labels (ow T : Nat) (t : Tensor W) (o : M (List Nat)) (h : (sMaxLabels ow T t).Out o) :
    o = .error .overflow ∨ (maxLabels ow T t).Out o := sMaxLabels_sim ow T t o h

/-! ## files without large numbers: no overflow, whatever the bytes -/

theorem SignedFit.pos {k : Nat} {file : List Byte} (h : Spec.NumbersBelow k file) : 0 < k :=
  Nat.lt_of_le_of_lt (Nat.zero_le _) (h [] (List.nil_infix) (by simp))

theorem SignedFit.four {file : List Byte} {lw ow T : Nat} (h : Spec.SignedFit file lw ow T) :
    2 * (T * (2 * file.length)) < 2 ^ (ow - 1) ∧ (T + 1) * file.length + 1 < 2 ^ (ow - 1) := by
  have := h.ordinals
  have e : (T + 1) * (file.length + 1) = T * file.length + file.length + T + 1 := by
    rw [Nat.mul_add, Nat.succ_mul]; omega
  rw [e] at this
  have e2 : T * (2 * file.length) = 2 * (T * file.length) := Nat.mul_left_comm ..
  have e3 : (T + 1) * file.length = T * file.length + file.length := Nat.succ_mul ..
  rw [e2, e3]
  omega

theorem sReadCooText_small (P : Params W) (cfg : Cfg) (μ : Mapping) (p : Nat) (t : FileType) (hp : p ≤ μ.bytes.length)
    (htext : t = .matrixMarket ∨ t = .edgeList) (h : Spec.SignedFit μ.bytes (8 * P.lb) (8 * P.ob) P.T) :
    (sReadCooText P cfg μ p t >>= fun c => pure (c, p)) = readCooFmt P cfg μ p t ∧
    ∀ c, (readCooFmt P cfg μ p t).Out (.ok c) → c.1.n + 1 < 2 ^ (8 * P.lb - 1) ∧ c.1.m < 2 ^ (8 * P.ob - 1) := by
  obtain ⟨k, hk, h1, h2⟩ := h.numbers
  have h0 := SignedFit.pos hk
  obtain ⟨f1, f2⟩ := SignedFit.four h
  have hr : (readerAt μ p).d ≤ μ.bytes.length ∧ (readerAt μ p).e = μ.bytes.length := ⟨hp, rfl⟩
  rcases htext with rfl | rfl
  · refine ⟨?_, ?_⟩
    · have e : sReadCooText P cfg μ p .matrixMarket = (fun o => ReadMm μ (8 * P.lb) (8 * P.ob) cfg P.wk P.T (readerAt μ p) o : R (Coo W)) := by
        funext o
        exact propext (SReadMm_small (by omega) hk h0 (by omega) hk cfg P.wk hr f1 o)
      rw [e]; rfl
    · rintro c ⟨o, ho, hc⟩
      cases o with
      | error f => cases hc
      | ok c' =>
        cases hc
        have := ReadMm_bound (by omega) hk h0 hr (by omega) ho
        simp only
        omega
  · refine ⟨?_, ?_⟩
    · have e : sReadCooText P cfg μ p .edgeList = (fun o => ReadEl μ (8 * P.lb) (8 * P.ob) cfg P.wk P.T (readerAt μ p) o : R (Coo W)) := by
        funext o
        exact propext (SReadEl_small (by omega) hk h0 cfg P.wk hr (by omega) o).1
      rw [e]; rfl
    · rintro c ⟨o, ho, hc⟩
      cases o with
      | error f => cases hc
      | ok c' =>
        cases hc
        have := ReadEl_bound (by omega) hk h0 hr (by omega) ho
        simp only
        omega

theorem bind_assocR {α β γ : Type} (p : R α) (f : α → R β) (g : β → R γ) : ((p >>= f) >>= g) = (p >>= fun a => f a >>= g) := by
  funext out
  apply propext
  constructor
  · rintro ⟨o, ⟨o1, h1, h2⟩, h3⟩
    refine ⟨o1, h1, ?_⟩
    cases o1 with
    | error f => cases h2; exact h3
    | ok a => exact ⟨o, h2, h3⟩
  · rintro ⟨o1, h1, h2⟩
    cases o1 with
    | error f => exact ⟨.error f, ⟨_, h1, rfl⟩, h2⟩
    | ok a => obtain ⟨o, h3, h4⟩ := h2; exact ⟨o, ⟨_, h1, h3⟩, h4⟩

theorem pure_bindR {α β : Type} (a : α) (f : α → R β) : ((pure a : R α) >>= f) = f a := by
  funext out
  exact propext ⟨fun ⟨o, ho, hk⟩ => by cases ho; exact hk, fun hk => ⟨_, rfl, hk⟩⟩

theorem bind_pureR {α : Type} (p : R α) : (p >>= fun a => (pure a : R α)) = p := by
  funext out
  apply propext
  constructor
  · rintro ⟨o, ho, hk⟩
    cases o with
    | error f => cases hk; exact ho
    | ok a => cases hk; exact ho
  · intro h
    refine ⟨out, h, ?_⟩
    cases out <;> rfl

/-- C98: `COO(fn)` with signed types of any text file without large numbers, flags, weight type and number of threads: no execution
overflows, and the executions are the ones with the unsigned types. -/
theorem C98_coo_text_same (P : Params W) (cfg : Cfg) (μ : Mapping) (fn : List Byte) (p : Nat) (ft t : FileType) (hp : p ≤ μ.bytes.length)
    (ht : usedType μ fn p ft = .ok t) (htext : t = .matrixMarket ∨ t = .edgeList)
    (h : Spec.SignedFit μ.bytes (8 * P.lb) (8 * P.ob) P.T) (o : M (Coo W)) :
    (sReadCoo P cfg μ fn p ft).Out o ↔ (readCoo P cfg μ fn p ft).Out o := by
  suffices hh : sReadCoo P cfg μ fn p ft = readCoo P cfg μ fn p ft by rw [hh]
  rw [sReadCoo_text ht htext, readCoo_textS ht htext, ← (sReadCooText_small P cfg μ p t hp htext h).1, bind_assocR]
  simp only [pure_bindR]
  exact (bind_pureR _).symm

/-- C98: the same for `CSR(fn)` of such a file. -/
theorem C98_csr_text_same (P : Params W) (μ : Mapping) (fn : List Byte) (p : Nat) (ft t : FileType) (hp : p ≤ μ.bytes.length)
    (ht : usedType μ fn p ft = .ok t) (htext : t = .matrixMarket ∨ t = .edgeList)
    (h : Spec.SignedFit μ.bytes (8 * P.lb) (8 * P.ob) P.T) (o : M (Csr W × Nat)) :
    (sReadCsr P μ fn p ft).Out o ↔ (readCsr P μ fn p ft).Out o := by
  suffices hh : sReadCsr P μ fn p ft = readCsr P μ fn p ft by rw [hh]
  obtain ⟨h1, h2⟩ := sReadCooText_small P {} μ p t hp htext h
  rw [sReadCsr_text ht htext, readCsr_text ht htext, ← h1, bind_assocR]
  simp only [pure_bindR]
  refine R.bind_congrOut (fun c hc => ?_)
  have := h2 (c, p) (by rw [← h1]; exact ⟨_, hc, rfl⟩)
  rw [sConvertCoo_small _ _ c this.1 this.2]

/-- C98: `CSR(fn)` with signed types of any `.graph` file without large numbers: no execution overflows, and the executions are the
ones with the unsigned types, described by C58–C62, C71, C72, C83. -/
theorem C98_csr_graph_same (P : Params W) (μ : Mapping) (fn : List Byte) (p : Nat) (ft : FileType) (hp : p ≤ μ.bytes.length)
    (ht : usedType μ fn p ft = .ok .graph) (h : Spec.SignedFit μ.bytes (8 * P.lb) (8 * P.ob) P.T)
    (hrows : P.T * μ.bytes.length + 2 < 2 ^ (8 * P.lb - 1)) (o : M (Csr W × Nat)) :
    (sReadCsr P μ fn p ft).Out o ↔ (readCsr P μ fn p ft).Out o := by
  suffices hh : sReadCsr P μ fn p ft = readCsr P μ fn p ft by rw [hh]
  obtain ⟨k, hk, h1, h2⟩ := h.numbers
  obtain ⟨f1, f2⟩ := SignedFit.four h
  rw [sReadCsr_graph ht, readCsr_graph ht,
    sReadGraph_small (L := μ.bytes.length) (by omega) (SignedFit.pos hk) h2 hk hk ⟨hp, rfl⟩ hrows (by omega)]

/-- C98: the same for `COO(fn)` of such a file, with any flags. -/
theorem C98_coo_graph_same (P : Params W) (cfg : Cfg) (μ : Mapping) (fn : List Byte) (p : Nat) (ft : FileType) (hp : p ≤ μ.bytes.length)
    (ht : usedType μ fn p ft = .ok .graph) (h : Spec.SignedFit μ.bytes (8 * P.lb) (8 * P.ob) P.T)
    (hrows : P.T * μ.bytes.length + 2 < 2 ^ (8 * P.lb - 1)) (o : M (Coo W)) :
    (sReadCoo P cfg μ fn p ft).Out o ↔ (readCoo P cfg μ fn p ft).Out o := by
  suffices hh : sReadCoo P cfg μ fn p ft = readCoo P cfg μ fn p ft by rw [hh]
  obtain ⟨k, hk, h1, h2⟩ := h.numbers
  obtain ⟨f1, f2⟩ := SignedFit.four h
  have hcsr : sReadCsr P μ fn p .graph = readCsr P μ fn p .graph := by
    funext o
    exact propext (C98_csr_graph_same P μ fn p .graph hp rfl h hrows o)
  rw [sReadCoo_graph ht, readCoo_graph ht, hcsr]
  refine R.bind_congrOut (fun c hc => ?_)
  refine sConvertCsr_small _ _ _ _ _ ?_
  rw [readCsr_graph rfl] at hc
  split at hc
  · cases hc
  · obtain ⟨o, ho, hc⟩ := hc
    cases o with
    | error f => cases hc
    | ok c' =>
      cases hc
      have := readGraph_bound (L := μ.bytes.length) (by omega) (SignedFit.pos hk) h2 hk hk ⟨hp, rfl⟩ hrows (by omega) ho
      simp only
      have e2 : P.T * (2 * μ.bytes.length) = 2 * (P.T * μ.bytes.length) := Nat.mul_left_comm ..
      rw [e2] at f1
      omega

/-! ## a `.graph` file with a large label -/

theorem sReadGraph_ncols {lw ow T : Nat} {μ : Mapping} {r : Reader} {c : Csr W} (ho : (sReadGraph lw ow T μ r).Out (.ok c)) :
    c.ncols < 2 ^ (lw - 1) := by
  obtain ⟨o, _, hk⟩ := ho
  cases o with
  | error f => cases hk
  | ok p =>
  obtain ⟨o, _, hk⟩ := hk
  cases o with
  | error f => cases hk
  | ok q =>
  obtain ⟨o, _, hk⟩ := hk
  cases o with
  | error f => cases hk
  | ok jo =>
  obtain ⟨o, _, hk⟩ := hk
  cases o with
  | error f => cases hk
  | ok je =>
  obtain ⟨o, _, hk⟩ := hk
  cases o with
  | error f => cases hk
  | ok oo =>
  obtain ⟨o, _, hk⟩ := hk
  cases o with
  | error f => cases hk
  | ok oe =>
  have hk : sGraphFinish lw ow p oe.1 oe.2 = .ok c := Eq.symm hk
  unfold sGraphFinish at hk
  obtain ⟨k, _, hk⟩ := bind_okS hk
  split at hk
  · cases hk
  · split at hk
    · cases hk
    · obtain ⟨nc, hnc, hk⟩ := bind_okS hk
      cases hk
      have := wrapS_ok hnc
      simp only
      omega

/-- C98: a well-formed zero-based `.graph` file with a label that, plus one, is too large for the signed type, though the unsigned
type holds it: every execution of `CSR(fn)` with the signed types overflows (undefined behaviour). -/
theorem C98_graph_overflow_violated (μ : Mapping) (hpad : 0 < μ.pad) (lw ow T n m : Nat) (hT : 0 < T) (rows : List (List Nat))
    (body : List (List Byte)) (tail : List Byte) (h : GraphOk μ.bytes lw ow n m rows body tail) (hh : HeaderOk n m rows)
    (hz : Spec.ZeroBased body tail) (hfirst : ∀ r, rows.head? = some r → r ≠ [])
    (hbig : ∃ u ∈ rows.flatten, 2 ^ (lw - 1) ≤ u + 1) (hfits : ∀ u ∈ rows.flatten, u + 1 < 2 ^ lw) :
    (∀ out : M (Csr W), (sReadGraph lw ow T μ (fileReader μ)).Out out → out = .error .overflow) ∧
    (sReadGraph lw ow T μ (fileReader μ) : R (Csr W)).Any := by
  refine ⟨fun out ho => ?_, ?_⟩
  · rcases sReadGraph_sim lw ow T μ (fileReader μ) out ho with h' | h'
    · exact h'
    · exfalso
      obtain ⟨c, rfl, _, _, _, _, _, _, hc⟩ := C58_zero_based μ hpad lw ow T n m hT rows body tail h hh hz hfirst out h'
      have h1 := sReadGraph_ncols ho
      obtain ⟨u, hu, hb⟩ := hbig
      have h2 := le_maxOf hu
      have h3 : Spec.maxOf rows.flatten + 1 < 2 ^ lw := by
        have := maxOf_lt (l := rows.flatten) (b := 2 ^ lw - 1) (by have := hfits u hu; omega) (fun v hv => by have := hfits v hv; omega)
        omega
      rw [Nat.mod_eq_of_lt h3] at hc
      omega
  · unfold sReadGraph
    exact R.Any.bind (R.Any.lift _) (fun _ => R.Any.bind (R.Any.lift _) (fun _ => R.Any.bind R.Any.any (fun _ => R.Any.bind R.Any.any
      (fun _ => R.Any.bind (R.Any.lift _) (fun _ => R.Any.bind (R.Any.par _ _ _) (fun _ => R.Any.lift _))))))

/-! ## tensors -/

/-- C98: `Tensor(fn)` with signed types of a well-formed tensor file without large numbers, any weight type and number of threads: no
execution overflows, and the tensor is the one of C52. -/
theorem C98_tensor_load [Nonempty W] (P : Params W) (hT : 0 < P.T) (μ : Mapping) (hpad : 0 < μ.pad) (fn : List Byte) (ft : FileType)
    (hft : usedType μ fn 0 ft = .ok .edgeList) (entry : Nat → List Byte → Option (List Nat × W)) (wp : List Nat × W → Prop)
    (hf : TFormat P.wk entry wp) (k : Nat) (hk : 0 < k) (hok : Spec.TensorOk P.wk.wgt entry k μ.bytes)
    (hwp : ∀ en ∈ Spec.entries (entry k) μ.bytes, wp en)
    (hlab : ∀ en ∈ Spec.entries (entry k) μ.bytes, ∀ x ∈ en.1, x < 2 ^ (8 * P.lb)) (hkw : k + 1 < 2 ^ (8 * P.ob))
    (hkm : k * (Spec.entries (entry k) μ.bytes).length < 2 ^ (8 * P.ob - 1)) (h : Spec.SignedFit μ.bytes (8 * P.lb) (8 * P.ob) P.T) :
    (sReadTensor P μ fn 0 ft).All (fun t => HoldsT t P.wk.wgt (Spec.entries (entry k) μ.bytes) ∧
      (Spec.entries (entry k) μ.bytes ≠ [] → t.order = k)) ∧
    (sReadTensor P μ fn 0 ft).Any := by
  have hold := C52_tensor_load P hT μ hpad fn ft hft entry wp hf k hk hok hwp hlab hkw (Nat.lt_of_lt_of_le hkm (pow_pred_le _))
  have hany := C52_runs P μ fn ft hft
  obtain ⟨b, hb, h1, h2⟩ := h.numbers
  obtain ⟨f1, f2⟩ := SignedFit.four h
  have hsame : sReadTensor P μ fn 0 ft = readTensor P μ fn 0 ft := by
    rw [readTensor_text hft]
    unfold sReadTensor
    rw [hft, liftOk, if_pos rfl]
    refine sReadTensorEl_small (k := b) (L := μ.bytes.length) (by omega) hb P.wk ⟨Nat.zero_le _, rfl⟩ f2 ?_
    rw [readTensor_text hft] at hold
    refine hold.mono (fun t ht => ?_)
    rw [ht.1.m]
    by_cases he : Spec.entries (entry k) μ.bytes = []
    · rw [he]; exact Nat.pow_pos (by omega)
    · rw [ht.2 he]; exact hkm
  rw [hsame]
  exact ⟨hold, hany⟩

/-- C98: `max_labels()` with signed types, if the number of coordinates fits: no overflow, and the result is the one of C53. -/
theorem C98_max_labels (T ob : Nat) (hT : 0 < T) (t : Tensor W) (wgt : Bool) (es : List (List Nat × W)) (h : HoldsT t wgt es)
    (hfit : t.order * t.m < 2 ^ (8 * ob - 1)) :
    (sMaxLabels (8 * ob) T t).All (fun ret => ret.length = t.order ∧ ∀ j, j < t.order → ret[j]? = some (Spec.maxOf (es.map (fun e => e.1.getD j 0)))) ∧
    (sMaxLabels (8 * ob) T t).Any := by
  have hsame : sMaxLabels (8 * ob) T t = maxLabels (8 * ob) T t := by
    unfold sMaxLabels maxLabels
    refine R.bind_congrOut (fun its hits => ?_)
    have hits : OmpFor t.m T its := by
      obtain ⟨a, hh, ha⟩ := hits
      cases ha; exact hh
    have : mapE (fun l => sMaxThread (8 * ob) t l (List.replicate t.order 0)) its = mapE (fun l => maxThread (8 * ob) t l (List.replicate t.order 0)) its := by
      refine (Agree.mapE (P := fun _ => True) its (fun l hl => ⟨?_, fun _ _ => trivial⟩)).1
      refine sMaxThread_eq hfit l _ (fun e he => ?_)
      exact List.mem_range.mp (hits.all.mem_iff.mp (List.mem_flatten.mpr ⟨l, hl, he⟩))
    rw [this]
  rw [hsame]
  refine ⟨C53_max_labels T ob t wgt es h ?_, C53_runs T ob hT t⟩
  rw [show (256 : Nat) = 2 ^ 8 from rfl, ← Nat.pow_mul]
  exact Nat.lt_of_lt_of_le hfit (pow_pred_le _)

/-! ## concrete files -/

/-- Checking a concrete file. -/
theorem numbersBelow_of {k : Nat} {file : List Byte}
    (h : ∀ i ∈ List.range (file.length + 1), ∀ j ∈ List.range (file.length + 1),
      ((file.drop i).take j).all Spec.isDigit = false ∨ Spec.decimal ((file.drop i).take j) < k) : Spec.NumbersBelow k file := by
  rintro t ⟨a, b, hab⟩ ht
  have e : (file.drop a.length).take t.length = t := by
    rw [← hab, List.append_assoc, List.drop_left' rfl, List.take_left' rfl]
  have hlen := congrArg List.length hab
  simp only [List.length_append] at hlen
  rcases h a.length (List.mem_range.mpr (by omega)) t.length (List.mem_range.mpr (by omega)) with h | h
  · rw [e] at h
    rw [List.all_eq_true.mpr ht] at h
    cases h
  · rwa [e] at h

theorem exGraph0_fit : Spec.SignedFit exGraph0.bytes 32 64 3 where
  numbers := ⟨8, numbersBelow_of (by decide +kernel), by decide, by decide⟩
  ordinals := by decide

/-- `exGraph0` meets the hypotheses of the theorems on `.graph` files: with signed types its rows are the ones of the file. -/
example (P : Params Unit) (h1 : P.T = 3) (h2 : P.lb = 4) (h3 : P.ob = 8) (h4 : P.wk = wNone) (o : M (Csr Unit × Nat))
    (ho : (sReadCsr P exGraph0 (str "a.graph") 0 .auto).Out o) :
    ∃ c, o = .ok c ∧ Spec.row c.1 0 = [1, 2] ∧ Spec.row c.1 1 = [0, 3] ∧ Spec.row c.1 2 = [] ∧ Spec.row c.1 3 = [0, 1] := by
  have hu : usedType exGraph0 (str "a.graph") 0 .auto = .ok .graph := by decide +kernel
  have h := (C98_csr_graph_same P exGraph0 (str "a.graph") 0 .auto (Nat.zero_le _) hu (by rw [h1, h2, h3]; exact exGraph0_fit)
    (by rw [h1, h2]; decide) o).mp ho
  rw [readCsr_graph hu, h4] at h
  obtain ⟨o1, h5, h6⟩ := h
  rw [h1, h2, h3] at h5
  obtain ⟨c, rfl, _, hr, _⟩ := C58_zero_based exGraph0 (by decide) 32 64 3 4 3 (by decide) exRows0 exBody0 []
    exGraph0_ok ⟨by decide, by decide⟩ exGraph0_zero (by decide) o1 h5
  cases h6
  exact ⟨_, rfl, hr 0 _ rfl, hr 1 _ rfl, hr 2 _ rfl, hr 3 _ rfl⟩

/-- Its COO: `C98_coo_graph_same` applies, and some execution loads it. -/
example (P : Params Unit) (h1 : P.T = 3) (h2 : P.lb = 4) (h3 : P.ob = 8) (cfg : Cfg) (o : M (Coo Unit)) :
    (sReadCoo P cfg exGraph0 (str "a.graph") 0 .auto).Out o ↔ (readCoo P cfg exGraph0 (str "a.graph") 0 .auto).Out o :=
  C98_coo_graph_same P cfg exGraph0 (str "a.graph") 0 .auto (Nat.zero_le _) (by decide +kernel) (by rw [h1, h2, h3]; exact exGraph0_fit)
    (by rw [h1, h2]; decide) o

/-- A `.graph` file with the largest label of `int`, 2147483647. -/
def exGraphBig : Mapping := ⟨str "2 3\n1\n0 2147483647\n", 5⟩

theorem exGraphBig_ok : GraphOk exGraphBig.bytes 32 64 2 3 [[1], [0, 2147483647]] [str "1", str "0 2147483647"] [] where
  file := ⟨⟨[], str "2 3", by decide +kernel, by decide, [], by decide +kernel⟩, by decide +kernel⟩
  adj := by decide +kernel
  last := by decide
  labels := by decide
  fitRows := by decide
  fitN := by decide
  fitM := by decide
  fitInts := by decide

/-- The hypotheses of `C98_graph_overflow_violated` are met: loading this file with `int` labels overflows. -/
example : (∀ out : M (Csr Unit), (sReadGraph 32 64 2 exGraphBig (fileReader exGraphBig)).Out out → out = .error .overflow) ∧
    (sReadGraph 32 64 2 exGraphBig (fileReader exGraphBig) : R (Csr Unit)).Any :=
  C98_graph_overflow_violated exGraphBig (by decide) 32 64 2 2 3 (by decide) _ _ _ exGraphBig_ok ⟨by decide, by decide⟩
    ⟨str "0 2147483647", by decide +kernel, by decide +kernel⟩ (by decide) ⟨2147483647, by decide, by decide⟩ (by decide)

/-- `exFile`, an edge list, and `exMm`, a Matrix Market file. -/
example (P : Params Unit) (h1 : P.T = 3) (h2 : P.lb = 4) (h3 : P.ob = 8) (cfg : Cfg) (o : M (Coo Unit)) (o' : M (Csr Unit × Nat)) :
    ((sReadCoo P cfg exFile (str "g.txt") 0 .edgeList).Out o ↔ (readCoo P cfg exFile (str "g.txt") 0 .edgeList).Out o) ∧
    ((sReadCsr P exMm (str "g.mtx") 0 .matrixMarket).Out o' ↔ (readCsr P exMm (str "g.mtx") 0 .matrixMarket).Out o') := by
  refine ⟨C98_coo_text_same P cfg exFile _ 0 _ .edgeList (Nat.zero_le _) rfl (.inr rfl) ?_ o,
    C98_csr_text_same P exMm _ 0 _ .matrixMarket (Nat.zero_le _) rfl (.inl rfl) ?_ o'⟩
  · rw [h1, h2, h3]
    exact ⟨⟨1000, numbersBelow_of (by decide +kernel), by decide, by decide⟩, by decide⟩
  · rw [h1, h2, h3]
    exact ⟨⟨1000, numbersBelow_of (by decide +kernel), by decide, by decide⟩, by decide⟩

/-- `txFile` meets the hypotheses of `C98_tensor_load`, and the tensor the ones of `C98_max_labels`. -/
example (P : Params Int) (h1 : P.T = 2) (h2 : P.lb = 4) (h3 : P.ob = 8) (h4 : P.wk = wSint 32) :
    (sReadTensor P txFile (str "t.tns") 0 .edgeList >>= fun t => sMaxLabels (8 * P.ob) 3 t).All (fun ls => ls[0]? = some 30 ∧ ls[2]? = some 5) := by
  obtain ⟨hl, _⟩ := C98_tensor_load P (by omega) txFile (by decide) (str "t.tns") .edgeList rfl (Spec.tensorEntryW Spec.parseSigned) _
    (by rw [h4]; exact .sint 32) 3 (by decide)
    (by rw [h4]; exact tx_ok) (by rw [tx_entries]; decide) (by rw [tx_entries, h2]; decide) (by rw [h3]; decide) (by rw [tx_entries, h3]; decide)
    (by rw [h1, h2, h3]; exact ⟨⟨1000, numbersBelow_of (by decide +kernel), by decide, by decide⟩, by decide⟩)
  rw [tx_entries] at hl
  refine R.All.bind hl (fun t ht => ?_)
  have ho := ht.2 (by simp)
  obtain ⟨hm, _⟩ := C98_max_labels 3 P.ob (by decide) t _ _ ht.1 (by rw [ho, ht.1.m, h3]; decide)
  refine hm.mono (fun ls h => ?_)
  exact ⟨h.2 0 (by omega), h.2 2 (by omega)⟩

end Pigo
