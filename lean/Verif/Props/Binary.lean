import Verif.Lemmas.BinaryFiles
import Verif.Model.Dispatch

/-!
# Properties of the binary formats

C37–C45.  `⟨bs, pad⟩ : Mapping` is a file with content `bs` opened for reading.
-/

namespace Pigo

variable {W : Type}

/-! ## C44: block copies -/

/-- C44: `parallel_write` of the `n` bytes `v` puts them at the position, advances it by `n` and changes no other
byte, for every number of threads and every interleaving of the byte stores. -/
theorem C44_parallel_write (T : Nat) (hT : 0 < T) (v : List Byte) (f : WFile) (h : f.fp + v.length ≤ f.bytes.length) :
    (parWrite T v v.length f).All (fun f' => f'.fp = f.fp + v.length ∧ f'.bytes.length = f.bytes.length ∧
      (∀ i, i < v.length → f'.bytes[f.fp + i]? = v[i]?) ∧
      ∀ i, i < f.fp ∨ f.fp + v.length ≤ i → f'.bytes[i]? = f.bytes[i]?) := by
  obtain ⟨threads, h1, h2⟩ := par_copy (v := load v) (bs := v) (fun _ _ => rfl) (base := f.fp) hT rfl (dst := f.bytes) h
  unfold parWrite
  refine R.All.bind (R.All.lift h1 (Q := fun t => t = threads) rfl) (fun t ht => ?_)
  subst ht
  refine R.All.bind h2 (fun d hd => R.All.pure ?_)
  subst hd
  have hl : (f.bytes.take f.fp).length = f.fp := by rw [List.length_take]; omega
  refine ⟨rfl, ?_, ?_, ?_⟩
  · simp only [List.length_append, List.length_take, List.length_drop]; omega
  · intro i hi
    simp only
    rw [List.append_assoc, List.getElem?_append_right (by omega), List.getElem?_append_left (by omega), hl, Nat.add_sub_cancel_left]
  · intro i hi
    simp only
    rcases hi with hi | hi
    · rw [List.append_assoc, List.getElem?_append_left (by omega), List.getElem?_take_of_lt hi]
    · rw [List.getElem?_append_right (by rw [List.length_append]; omega), List.getElem?_drop, List.length_append, hl]
      congr 1; omega

/-- C44: `parallel_read` of `n` bytes copies the bytes of the file at the position to the array, advances the
position by `n` and changes no other element of the array. -/
theorem C44_parallel_read (T : Nat) (hT : 0 < T) (μ : Mapping) (dst : List Byte) (n p : Nat) (h : p + n ≤ μ.bytes.length)
    (hd : n ≤ dst.length) :
    (parRead T μ dst n p).All (fun r => r.2 = p + n ∧ r.1.length = dst.length ∧ (∀ i, i < n → r.1[i]? = μ.bytes[p + i]?) ∧
      ∀ i, n ≤ i → r.1[i]? = dst[i]?) := by
  have hl : ((μ.bytes.drop p).take n).length = n := by rw [List.length_take, List.length_drop]; omega
  obtain ⟨threads, h1, h2⟩ := par_copy (v := fun i => μ.get (p + i)) (bs := (μ.bytes.drop p).take n) (T := T) (n := n) (base := 0)
    (dst := dst) (by
      intro i hi
      rw [hl] at hi
      rw [μ.get_lt (by omega), load, List.getElem?_take_of_lt hi, List.getElem?_drop, List.getElem?_eq_getElem (by omega)]) hT hl
    (by omega)
  unfold parRead
  refine R.All.bind (R.All.lift h1 (Q := fun t => t = threads) rfl) (fun t ht => ?_)
  subst ht
  refine R.All.bind h2 (fun d hd' => R.All.pure ?_)
  subst hd'
  rw [List.take_zero, List.nil_append, Nat.zero_add]
  refine ⟨rfl, ?_, ?_, ?_⟩
  · simp only [List.length_append, hl, List.length_drop]; omega
  · intro i hi
    simp only
    rw [List.getElem?_append_left (by omega), List.getElem?_take_of_lt hi, List.getElem?_drop]
  · intro i hi
    simp only
    rw [List.getElem?_append_right (by omega), hl, List.getElem?_drop]
    congr 1; omega

/-- Seven bytes written by three threads in the middle of a file, and read back. -/
example : (WFile.mk 2 (List.replicate 12 0)).fp + (str "abcdefg").length ≤ (List.replicate 12 (0 : Byte)).length ∧
    (parWrite 3 (str "abcdefg") 7 ⟨2, List.replicate 12 0⟩).Any :=
  ⟨by decide, R.Any.bind (R.Any.lift _) (fun _ => R.Any.bind (R.Any.par ..) (fun _ => R.Any.pure _))⟩

/-! ## C41: the writers fill exactly the file they create -/

/-- C41 for COO: the file has the size computed beforehand and every byte is that of the layout; no store is outside
of the file (it would be a fault). -/
theorem C41_coo (T lb ob : Nat) (hT : 0 < T) (wgt : Bool) (cw : Codec W) (c : Coo W) (h : Spec.FitsCoo lb ob wgt cw c) :
    (saveCoo T lb ob wgt cw c).All (fun bs => bs = Spec.cooFile lb ob wgt cw c ∧ bs.length = cooSaveSize lb ob wgt cw c) := by
  refine (saveCoo_all hT cw h).mono (fun bs hb => ?_)
  subst hb
  exact ⟨cooBytes_eq .., cooBytes_length cw h⟩

/-- C41 for CSR. -/
theorem C41_csr (T lb ob : Nat) (hT : 0 < T) (wgt : Bool) (cw : Codec W) (c : Csr W) (h : Spec.FitsCsr lb ob wgt cw c) :
    (saveCsr T lb ob wgt cw c).All (fun bs => bs = Spec.csrFile lb ob wgt cw c ∧ bs.length = csrSaveSize lb ob wgt cw c) := by
  refine (saveCsr_all hT cw h).mono (fun bs hb => ?_)
  subst hb
  exact ⟨csrBytes_eq .., csrBytes_length cw h⟩

/-- C41 for Tensor. -/
theorem C41_tensor (T lb ob : Nat) (hT : 0 < T) (wgt : Bool) (cw : Codec W) (t : Tensor W) (h : Spec.FitsTensor lb ob wgt cw t) :
    (saveTensor T lb ob wgt cw t).All (fun bs => bs = Spec.tensorFile lb ob wgt cw t ∧ bs.length = tensorSaveSize lb ob wgt cw t) := by
  refine (saveTensor_all hT cw h).mono (fun bs hb => ?_)
  subst hb
  exact ⟨tensorBytes_eq .., tensorBytes_length cw h⟩

theorem saveDiGraph_all {T lb ob : Nat} (hT : 0 < T) {wgt : Bool} (cw : Codec W) {g : DiGraph W} (hi : Spec.FitsCsr lb ob wgt cw g.inG)
    (ho : Spec.FitsCsr lb ob wgt cw g.outG) :
    (saveDiGraph T lb ob wgt cw g).All (fun bs => bs = digraphMagic ++ csrBytes lb ob wgt cw g.inG ++ csrBytes lb ob wgt cw g.outG) := by
  have h1 := csrBytes_length cw hi
  have h2 := csrBytes_length cw ho
  have hpos := csrSaveSize_pos lb ob wgt cw g.inG
  unfold saveDiGraph
  refine R.All.bind (openW_all (by omega)) (fun f hf => ?_)
  refine R.All.bind (wBytes_all hf _ (by simp only [List.length_nil]; omega)) (fun f hf => ?_)
  refine R.All.bind (saveCsrTo_all (P := digraphMagic) hT cw hi (by simpa using hf) (by omega)) (fun f hf => ?_)
  refine R.All.bind (saveCsrTo_all (P := digraphMagic ++ csrBytes lb ob wgt cw g.inG) hT cw ho (by simpa using hf)
    (by rw [List.length_append, h1]; omega)) (fun f hf => ?_)
  refine R.All.pure ?_
  have hl : digraphMagic.length + csrSaveSize lb ob wgt cw g.inG + csrSaveSize lb ob wgt cw g.outG =
      (digraphMagic ++ csrBytes lb ob wgt cw g.inG ++ csrBytes lb ob wgt cw g.outG).length := by
    simp only [List.length_append, h1, h2]
  rw [hl] at hf
  exact hf.done

/-- C41 for DiGraph. -/
theorem C41_digraph (T lb ob : Nat) (hT : 0 < T) (wgt : Bool) (cw : Codec W) (g : DiGraph W) (hi : Spec.FitsCsr lb ob wgt cw g.inG)
    (ho : Spec.FitsCsr lb ob wgt cw g.outG) :
    (saveDiGraph T lb ob wgt cw g).All (fun bs => bs = Spec.digraphFile lb ob wgt cw g ∧
      bs.length = digraphMagic.length + csrSaveSize lb ob wgt cw g.inG + csrSaveSize lb ob wgt cw g.outG) := by
  refine (saveDiGraph_all hT cw hi ho).mono (fun bs hb => ?_)
  subst hb
  refine ⟨?_, by simp only [List.length_append, csrBytes_length cw hi, csrBytes_length cw ho]⟩
  rw [csrBytes_eq, csrBytes_eq]
  rfl

/-! ## C45: file types -/

theorem atStr_at (μ : Mapping) (s : List Byte) (p : Nat) :
    atStr μ s ⟨p, μ.bytes.length⟩ = .ok (decide (s <+: μ.bytes.drop p ∧ p + s.length < μ.bytes.length)) := by
  unfold atStr
  by_cases h : p + s.length < μ.bytes.length
  · rw [if_neg (by show ¬ _; simp only; omega), getBytes_eq _ _ (by simp only; omega), ok_bind]
    congr 1
    rw [Bool.eq_iff_iff, beq_iff_eq, decide_eq_true_eq]
    constructor
    · intro hh; exact ⟨List.prefix_iff_eq_take.mpr hh.symm, h⟩
    · intro hh; exact (List.prefix_iff_eq_take.mp hh.1).symm
  · rw [if_pos (by show _ ≥ _; simp only; omega)]
    congr 1
    rw [eq_comm, decide_eq_false_iff_not]
    exact fun hh => h hh.2

/-- The file continues at `p` with `s` and at least one more byte: what `at_str` recognises. -/
def HasAt (μ : Mapping) (p : Nat) (s : List Byte) : Prop := s <+: μ.bytes.drop p ∧ p + s.length < μ.bytes.length

instance (μ : Mapping) (p : Nat) (s : List Byte) : Decidable (HasAt μ p s) := inferInstanceAs (Decidable (_ ∧ _))

/-- Two magics that differ somewhere cannot both be there. -/
theorem HasAt.disjoint {μ : Mapping} {p : Nat} {s t : List Byte} (h : HasAt μ p s) (hst : ∃ i, i < s.length ∧ i < t.length ∧ s[i]? ≠ t[i]?) :
    ¬ HasAt μ p t := by
  intro h'
  obtain ⟨i, h1, h2, h3⟩ := hst
  apply h3
  obtain ⟨u, hu⟩ := h.1
  obtain ⟨v, hv⟩ := h'.1
  have e1 : (μ.bytes.drop p)[i]? = s[i]? := by rw [← hu, List.getElem?_append_left h1]
  have e2 : (μ.bytes.drop p)[i]? = t[i]? := by rw [← hv, List.getElem?_append_left h2]
  rw [← e1, e2]

theorem guess_eq (μ : Mapping) (fn : List Byte) (p : Nat) : guessFileType μ fn p =
    if HasAt μ p cooMagic then .ok .cooBin else if HasAt μ p csrMagic then .ok .csrBin
    else if HasAt μ p digraphMagic then .ok .digraphBin else if HasAt μ p tensorMagic then .ok .tensorBin
    else if HasAt μ p (str "PIGO") then .error .error
    else if endsWith fn (str ".mtx") then .ok .matrixMarket else if endsWith fn (str ".graph") then .ok .graph else .ok .edgeList := by
  unfold guessFileType
  simp only [atStr_at, ok_bind, decide_eq_true_eq]
  rfl

theorem endsWith_iff (fn ext : List Byte) : endsWith fn ext = true ↔ ext <:+ fn := by
  unfold endsWith
  rw [Bool.and_eq_true, decide_eq_true_eq, beq_iff_eq]
  constructor
  · intro h; exact List.suffix_iff_eq_drop.mpr h.2.symm
  · intro h; exact ⟨h.length_le, (List.suffix_iff_eq_drop.mp h).symm⟩

/-- The four binary formats with their magics. -/
def magics : List (List Byte × FileType) :=
  [(str "PIGO-COO-v1", .cooBin), (str "PIGO-CSR-v2", .csrBin), (str "PIGO-DiGraph-v1", .digraphBin), (str "PIGO-Tensor-2", .tensorBin)]

/-- C45: a file starting with one of the magics (and longer than it) has that type, whatever its name. -/
theorem C45_magic (μ : Mapping) (fn : List Byte) (p : Nat) (q : List Byte × FileType) (hq : q ∈ magics) (h : HasAt μ p q.1) :
    guessFileType μ fn p = .ok q.2 := by
  rw [guess_eq]
  simp only [magics, List.mem_cons, List.not_mem_nil, or_false] at hq
  rcases hq with rfl | rfl | rfl | rfl
  · rw [if_pos (show HasAt μ p cooMagic from h)]
  · rw [if_neg (h.disjoint (t := cooMagic) ⟨6, by decide, by decide, by decide⟩), if_pos (show HasAt μ p csrMagic from h)]
  · rw [if_neg (h.disjoint (t := cooMagic) ⟨5, by decide, by decide, by decide⟩),
      if_neg (h.disjoint (t := csrMagic) ⟨5, by decide, by decide, by decide⟩), if_pos (show HasAt μ p digraphMagic from h)]
  · rw [if_neg (h.disjoint (t := cooMagic) ⟨5, by decide, by decide, by decide⟩),
      if_neg (h.disjoint (t := csrMagic) ⟨5, by decide, by decide, by decide⟩),
      if_neg (h.disjoint (t := digraphMagic) ⟨5, by decide, by decide, by decide⟩), if_pos (show HasAt μ p tensorMagic from h)]

/-- C45: any other file starting with `PIGO` is rejected with `Error`. -/
theorem C45_unknown_magic (μ : Mapping) (fn : List Byte) (p : Nat) (hn : ∀ q ∈ magics, ¬ HasAt μ p q.1) (h : HasAt μ p (str "PIGO")) :
    guessFileType μ fn p = .error .error := by
  simp only [magics, List.mem_cons, List.not_mem_nil, or_false, forall_eq_or_imp, forall_eq] at hn
  obtain ⟨h1, h2, h3, h4⟩ := hn
  rw [guess_eq, if_neg (show ¬ HasAt μ p cooMagic from h1), if_neg (show ¬ HasAt μ p csrMagic from h2),
    if_neg (show ¬ HasAt μ p digraphMagic from h3), if_neg (show ¬ HasAt μ p tensorMagic from h4), if_pos h]

/-- C45: files that do not start with `PIGO` go by the suffix of their name. -/
theorem C45_by_name (μ : Mapping) (fn : List Byte) (p : Nat) (h : ¬ HasAt μ p (str "PIGO")) :
    guessFileType μ fn p = .ok (if str ".mtx" <:+ fn then .matrixMarket else if str ".graph" <:+ fn then .graph else .edgeList) := by
  have hp : ∀ t, HasAt μ p (str "PIGO" ++ t) → False := by
    intro t ht
    refine h ⟨(List.prefix_append _ t).trans ht.1, ?_⟩
    have := ht.2
    rw [List.length_append] at this
    omega
  rw [guess_eq, if_neg (show ¬ HasAt μ p cooMagic from hp (str "-COO-v1")), if_neg (show ¬ HasAt μ p csrMagic from hp (str "-CSR-v2")),
    if_neg (show ¬ HasAt μ p digraphMagic from hp (str "-DiGraph-v1")), if_neg (show ¬ HasAt μ p tensorMagic from hp (str "-Tensor-2")), if_neg h]
  simp only [endsWith_iff]
  split
  · rfl
  · split <;> rfl

theorem hasAt_zero {μ : Mapping} {s t : List Byte} (h : μ.bytes = s ++ t) (ht : t ≠ []) : HasAt μ 0 s := by
  refine ⟨by rw [List.drop_zero, h]; exact List.prefix_append _ _, ?_⟩
  rw [h, List.length_append]
  have := List.length_pos_iff.mpr ht
  omega

theorem le_ne_nil (n : Nat) (l : List Byte) : Spec.le 1 n ++ l ≠ [] := by
  unfold Spec.le; simp [List.range_succ]

/-- C45: saved files are recognised as their own type under every name. -/
theorem C45_saved (lb ob pad : Nat) (wgt : Bool) (cw : Codec W) (fn : List Byte) (c : Coo W) (r : Csr W) (g : DiGraph W) (t : Tensor W) :
    guessFileType ⟨Spec.cooFile lb ob wgt cw c, pad⟩ fn 0 = .ok .cooBin ∧
    guessFileType ⟨Spec.csrFile lb ob wgt cw r, pad⟩ fn 0 = .ok .csrBin ∧
    guessFileType ⟨Spec.digraphFile lb ob wgt cw g, pad⟩ fn 0 = .ok .digraphBin ∧
    guessFileType ⟨Spec.tensorFile lb ob wgt cw t, pad⟩ fn 0 = .ok .tensorBin := by
  have hz : ∀ {s u l : List Byte} (bs : List Byte), bs = s ++ (u ++ l) → u ≠ [] → HasAt ⟨bs, pad⟩ 0 s := by
    intro s u l bs h hu
    exact hasAt_zero (t := u ++ l) h (by simp [hu])
  have h1 : Spec.le 1 lb ≠ [] := by have := le_ne_nil lb []; rwa [List.append_nil] at this
  refine ⟨C45_magic _ fn 0 (str "PIGO-COO-v1", .cooBin) (by simp [magics]) ?_, C45_magic _ fn 0 (str "PIGO-CSR-v2", .csrBin) (by simp [magics]) ?_,
    C45_magic _ fn 0 (str "PIGO-DiGraph-v1", .digraphBin) (by simp [magics]) ?_, C45_magic _ fn 0 (str "PIGO-Tensor-2", .tensorBin) (by simp [magics]) ?_⟩
  · exact hz _ (by simp only [Spec.cooFile, List.append_assoc]; rfl) h1
  · exact hz _ (by simp only [Spec.csrFile, List.append_assoc]; rfl) h1
  · exact hz (u := str "PIGO-CSR-v2") _ (by simp only [Spec.digraphFile, Spec.csrFile, List.append_assoc]; rfl) (by simp [str])
  · exact hz _ (by simp only [Spec.tensorFile, List.append_assoc]; rfl) h1

/-- The hypotheses of C45 can be met. -/
example : HasAt ⟨str "PIGO-CSR-v2 and more", 0⟩ 0 (str "PIGO-CSR-v2") ∧
    ((∀ q ∈ magics, ¬ HasAt ⟨str "PIGO-CSR-v1 and more", 0⟩ 0 q.1) ∧ HasAt ⟨str "PIGO-CSR-v1 and more", 0⟩ 0 (str "PIGO")) ∧
    ¬ HasAt ⟨str "1 2\n", 0⟩ 0 (str "PIGO") ∧ str ".mtx" <:+ str "a.mtx" := by decide

/-! ## C37–C40: round trips -/

theorem rest_file {bs : List Byte} {pad : Nat} : Rest ⟨bs, pad⟩ 0 (bs ++ List.replicate pad 0) := ⟨Nat.zero_le _, rfl⟩

/-- C37: saving a COO and loading the file (detected automatically, under any name, with any numbers of threads)
gives the same object. -/
theorem C37_coo_roundtrip (P : Params W) (T : Nat) (hT : 0 < T) (hT' : 0 < P.T) (hlb : P.lb < 256) (hob : P.ob < 256) (cfg : Cfg)
    (c : Coo W) (h : Spec.FitsCoo P.lb P.ob P.wk.wgt P.cw c) (fn : List Byte) (pad : Nat) (ft : FileType) (hft : ft = .auto ∨ ft = .cooBin) :
    (saveCoo T P.lb P.ob P.wk.wgt P.cw c >>= fun bs => readCoo P cfg ⟨bs, pad⟩ fn 0 ft).All (fun r => r = c) := by
  refine R.All.bind (saveCoo_all hT P.cw h) (fun bs hb => ?_)
  unfold readCoo
  refine R.All.step (a := FileType.cooBin) ?_ ?_
  · unfold usedType
    rcases hft with rfl | rfl
    · rw [if_pos rfl, hb, cooBytes_eq]
      have := (C45_saved P.lb P.ob pad P.wk.wgt P.cw fn c ⟨[], [], [], 0, 0, 0, 0⟩ ⟨⟨[], [], [], 0, 0, 0, 0⟩, ⟨[], [], [], 0, 0, 0, 0⟩⟩ ⟨[], [], 0, 0⟩).1
      exact this
    · rfl
  · rw [if_pos (by simp)]
    refine R.All.same (a := (c, 0 + (cooBytes P.lb P.ob P.wk.wgt P.cw c).length)) ?_ (R.All.pure rfl)
    unfold readCooFmt
    rw [if_neg (by decide), if_neg (by decide)]
    subst hb
    refine readBinCoo_at hT' hlb hob P.cw h rest_file ?_
    show _ < (cooBytes _ _ _ _ _).length
    rw [cooBytes_length P.cw h, cooSaveSize]
    omega

/-- The position of a loaded CSR moves to its end; automatic detection included. -/
theorem readCsr_at (P : Params W) (hT' : 0 < P.T) (hlb : P.lb < 256) (hob : P.ob < 256)
    {c : Csr W} (h : Spec.FitsCsr P.lb P.ob P.wk.wgt P.cw c) (fn : List Byte) {μ : Mapping} {p : Nat} {l : List Byte}
    (hr : Rest μ p (csrBytes P.lb P.ob P.wk.wgt P.cw c ++ l)) (hm : HasAt μ p csrMagic) {ft : FileType} (hft : ft = .auto ∨ ft = .csrBin) :
    (readCsr P μ fn p ft).All (fun r => r = (c, p + (csrBytes P.lb P.ob P.wk.wgt P.cw c).length)) := by
  unfold readCsr
  refine R.All.step (a := FileType.csrBin) ?_ ?_
  · unfold usedType
    rcases hft with rfl | rfl
    · rw [if_pos rfl]
      exact C45_magic _ fn p (str "PIGO-CSR-v2", .csrBin) (by simp [magics]) hm
    · rfl
  · rw [if_neg (by simp), if_pos rfl]
    exact readBinCsr_at hT' hlb hob P.cw h hr hm.2

theorem csrBytes_magic (lb ob : Nat) (wgt : Bool) (cw : Codec W) (c : Csr W) : ∃ l, csrBytes lb ob wgt cw c = csrMagic ++ Spec.le 1 lb ++ l := by
  simp only [csrBytes, List.append_assoc, encLE_eq]
  exact ⟨_, rfl⟩

/-- C38: saving a CSR and loading the file gives the same object. -/
theorem C38_csr_roundtrip (P : Params W) (T : Nat) (hT : 0 < T) (hT' : 0 < P.T) (hlb : P.lb < 256) (hob : P.ob < 256)
    (c : Csr W) (h : Spec.FitsCsr P.lb P.ob P.wk.wgt P.cw c) (fn : List Byte) (pad : Nat) (ft : FileType) (hft : ft = .auto ∨ ft = .csrBin) :
    (saveCsr T P.lb P.ob P.wk.wgt P.cw c >>= fun bs => readCsr P ⟨bs, pad⟩ fn 0 ft).All (fun r => r.1 = c) := by
  refine R.All.bind (saveCsr_all hT P.cw h) (fun bs hb => ?_)
  subst hb
  refine (readCsr_at P hT' hlb hob h fn rest_file ?_ hft).mono (fun r hr => by rw [hr])
  obtain ⟨l, hl⟩ := csrBytes_magic P.lb P.ob P.wk.wgt P.cw c
  refine hasAt_zero (t := Spec.le 1 P.lb ++ l) ?_ (le_ne_nil _ _)
  show csrBytes _ _ _ _ _ = _
  rw [hl, List.append_assoc]

/-- C39: saving a DiGraph and loading the file gives the same two graphs. -/
theorem C39_digraph_roundtrip (P : Params W) (T : Nat) (hT : 0 < T) (hT' : 0 < P.T) (hlb : P.lb < 256) (hob : P.ob < 256)
    (g : DiGraph W) (hi : Spec.FitsCsr P.lb P.ob P.wk.wgt P.cw g.inG) (ho : Spec.FitsCsr P.lb P.ob P.wk.wgt P.cw g.outG) (fn : List Byte) (pad : Nat) :
    (saveDiGraph T P.lb P.ob P.wk.wgt P.cw g >>= fun bs => readDiGraphBin P ⟨bs, pad⟩ fn 0).All (fun r => r = g) := by
  refine R.All.bind (saveDiGraph_all hT P.cw hi ho) (fun bs hb => ?_)
  have hr : Rest ⟨bs, pad⟩ 0 (bs ++ List.replicate pad 0) := rest_file
  have hl1 := csrBytes_length P.cw hi
  have hl2 := csrBytes_length P.cw ho
  have hp1 := csrSaveSize_pos P.lb P.ob P.wk.wgt P.cw g.inG
  have hlen : bs.length = digraphMagic.length + csrSaveSize P.lb P.ob P.wk.wgt P.cw g.inG + csrSaveSize P.lb P.ob P.wk.wgt P.cw g.outG := by
    rw [hb]; simp only [List.length_append, hl1, hl2]
  rw [show bs ++ List.replicate pad 0 = digraphMagic ++ (csrBytes P.lb P.ob P.wk.wgt P.cw g.inG ++ (csrBytes P.lb P.ob P.wk.wgt P.cw g.outG ++ List.replicate pad 0)) by
    rw [hb]; simp only [List.append_assoc]] at hr
  unfold readDiGraphBin
  refine R.All.step (rdStr_at hr (by show _ < bs.length; omega)) ?_
  have hr1 := hr.next
  -- the CSRs start with their magic
  have hm : ∀ (c : Csr W) (p : Nat) (pre post : List Byte), bs = pre ++ csrBytes P.lb P.ob P.wk.wgt P.cw c ++ post → pre.length = p →
      HasAt ⟨bs, pad⟩ p csrMagic := by
    intro c p pre post he hp
    obtain ⟨l, hl⟩ := csrBytes_magic P.lb P.ob P.wk.wgt P.cw c
    refine ⟨?_, ?_⟩
    · show _ <+: bs.drop p
      rw [he, hl, ← hp]
      simp only [List.append_assoc, List.drop_left]
      exact List.prefix_append _ _
    · show _ < bs.length
      rw [he, hl]
      simp only [List.length_append, Spec.le, List.length_map, List.length_range]
      omega
  refine R.All.same (readCsr_at P hT' hlb hob hi fn hr1 (hm g.inG _ digraphMagic _ hb (by simp)) (.inl rfl)) ?_
  have hr2 := hr1.next
  refine R.All.same (readCsr_at P hT' hlb hob ho fn hr2
    (hm g.outG _ (digraphMagic ++ csrBytes P.lb P.ob P.wk.wgt P.cw g.inG) [] (by rw [hb, List.append_nil]) (by simp)) (.inl rfl)) ?_
  exact R.All.pure rfl

/-- C40: saving a Tensor and loading the file gives the same object. -/
theorem C40_tensor_roundtrip (T T' lb ob : Nat) (hT : 0 < T) (hT' : 0 < T') (hlb : lb < 256) (hob : ob < 256) (wgt : Bool) (cw : Codec W)
    (hcw : cw.size < 256) (t : Tensor W) (h : Spec.FitsTensor lb ob wgt cw t) (pad : Nat) :
    (saveTensor T lb ob wgt cw t >>= fun bs => readBinTensor T' lb ob wgt cw ⟨bs, pad⟩ 0).All (fun r => r = t) := by
  refine R.All.bind (saveTensor_all hT cw h) (fun bs hb => ?_)
  subst hb
  refine readBinTensor_at hT' hlb hob cw hcw h rest_file ?_
  show _ < (tensorBytes _ _ _ _ _).length
  rw [tensorBytes_length cw h, tensorSaveSize]
  omega

end Pigo
