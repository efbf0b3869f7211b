import Verif.Lemmas.Robust
import Verif.Props.CrossFile

/-!
# Arbitrary text

C82: what an edge list load does with arbitrary bytes, and what the classes built on it do then.
-/

namespace Pigo

variable {W : Type}

/-- The entries of an unweighted COO. -/
def cooEntries (c : Coo Unit) : List (Nat × Nat × Unit) := (c.x.zip c.y).map (fun p => (p.1, p.2, ()))

theorem cooEntries_of {c : Coo Unit} {es : List (Nat × Nat × Unit)} (h : Holds c false es) : cooEntries c = es := by
  unfold cooEntries
  rw [h.x, h.y, List.zip_map', List.map_map]
  exact List.map_id'' (fun e => rfl) es

theorem holds_self {c : Coo Unit} (hx : c.x.length = c.m) (hy : c.y.length = c.m) : Holds c false (cooEntries c) := by
  have hl : (c.x.zip c.y).length = c.m := by rw [List.length_zip]; omega
  refine ⟨by rw [cooEntries, List.length_map, hl], ?_, ?_, fun h => by cases h⟩
  · show c.x = (cooEntries c).map (fun e => e.1)
    unfold cooEntries
    rw [List.map_map, show ((fun e : Nat × Nat × Unit => e.1) ∘ fun p : Nat × Nat => (p.1, p.2, ())) = Prod.fst from rfl, List.map_fst_zip]
    omega
  · show c.y = (cooEntries c).map (fun e => e.2.1)
    unfold cooEntries
    rw [List.map_map, show ((fun e : Nat × Nat × Unit => e.2.1) ∘ fun p : Nat × Nat => (p.1, p.2, ())) = Prod.snd from rfl, List.map_snd_zip]
    omega

/-- Stored entries when adding one to the largest row or column does not wrap. -/
theorem cooOf_below {lw : Nat} {cfg : Cfg} {es : List (Nat × Nat × W)} {wgt : Bool}
    (hes : ∀ s ∈ storedAll cfg es, s.1 + 1 < 2 ^ lw ∧ s.2.1 + 1 < 2 ^ lw) :
    ∀ s ∈ storedAll cfg es, s.1 < max (cooOf lw cfg wgt es).nrows (cooOf lw cfg wgt es).ncols ∧
      s.2.1 < max (cooOf lw cfg wgt es).nrows (cooOf lw cfg wgt es).ncols := by
  intro s hs
  have hb : 1 < 2 ^ lw := by have := hes s hs; omega
  have hmem : ∀ p ∈ prims cfg es, p.1 + 1 < 2 ^ lw ∧ p.2.1 + 1 < 2 ^ lw := fun p hp => hes p (mem_prims hp)
  have m1 : Spec.maxOf ((prims cfg es).map (·.1)) < 2 ^ lw - 1 := maxOf_lt (by omega) (by
    intro a ha; obtain ⟨p, hp, rfl⟩ := List.mem_map.mp ha; have := hmem p hp; omega)
  have m2 : Spec.maxOf ((prims cfg es).map (·.2.1)) < 2 ^ lw - 1 := maxOf_lt (by omega) (by
    intro a ha; obtain ⟨p, hp, rfl⟩ := List.mem_map.mp ha; have := hmem p hp; omega)
  have e1 : (cooOf lw cfg wgt es).nrows = Spec.maxOf ((prims cfg es).map (·.1)) + 1 := Nat.mod_eq_of_lt (by omega)
  have e2 : (cooOf lw cfg wgt es).ncols = Spec.maxOf ((prims cfg es).map (·.2.1)) + 1 := Nat.mod_eq_of_lt (by omega)
  unfold storedAll at hs
  rw [List.mem_flatMap] at hs
  obtain ⟨e, he, hs⟩ := hs
  obtain ⟨p, hp, hsp, _⟩ := mem_stored hs
  have hpm : p ∈ prims cfg es := List.mem_filterMap.mpr ⟨e, he, hp⟩
  have k1 : p.1 ≤ Spec.maxOf ((prims cfg es).map (·.1)) := le_maxOf (List.mem_map.mpr ⟨p, hpm, rfl⟩)
  have k2 : p.2.1 ≤ Spec.maxOf ((prims cfg es).map (·.2.1)) := le_maxOf (List.mem_map.mpr ⟨p, hpm, rfl⟩)
  rw [e1, e2]
  omega

/-- No label is the largest one of the type (whose successor does not fit). -/
def NoTop (lw : Nat) (c : Coo Unit) : Prop := (∀ a ∈ c.x, a + 1 < 2 ^ lw) ∧ ∀ a ∈ c.y, a + 1 < 2 ^ lw

/-- A COO that is what it should be: arrays of the size `m`, labels of the label type, and below `n` unless the largest label
of the type is among them. -/
structure Sound (lw : Nat) (c : Coo Unit) : Prop where
  x : c.x.length = c.m
  y : c.y.length = c.m
  fits : (∀ a ∈ c.x, a < 2 ^ lw) ∧ ∀ a ∈ c.y, a < 2 ^ lw
  labels : NoTop lw c → (∀ a ∈ c.x, a < c.n) ∧ ∀ a ∈ c.y, a < c.n

theorem cooOf_sound {lw : Nat} {cfg : Cfg} {es : List (Nat × Nat × Unit)} (hes : ∀ e ∈ es, e.1 < 2 ^ lw ∧ e.2.1 < 2 ^ lw) {nr nc n : Nat}
    (hr : (cooOf lw cfg false es).nrows ≤ nr) (hc : (cooOf lw cfg false es).ncols ≤ nc) (hn : n = max nr nc) :
    Sound lw { cooOf lw cfg false es with nrows := nr, ncols := nc, n := n } := by
  have hh := cooOf_holds lw cfg false es
  have hf : ∀ s ∈ storedAll cfg es, s.1 < 2 ^ lw ∧ s.2.1 < 2 ^ lw := by
    intro s hs
    unfold storedAll at hs
    rw [List.mem_flatMap] at hs
    obtain ⟨e, he, hs⟩ := hs
    obtain ⟨p, _, h1, h2⟩ := mem_stored hs
    have := hes e he
    omega
  refine ⟨by dsimp only; rw [hh.x, hh.m, List.length_map], by dsimp only; rw [hh.y, hh.m, List.length_map], ?_, fun ⟨h1, h2⟩ => ?_⟩
  · dsimp only
    rw [hh.x, hh.y]
    constructor <;> intro a ha <;> obtain ⟨s, hs, rfl⟩ := List.mem_map.mp ha
    · exact (hf s hs).1
    · exact (hf s hs).2
  · dsimp only at h1 h2 ⊢
    rw [hh.x] at h1
    rw [hh.y] at h2
    have k := cooOf_below (wgt := false) (fun s hs => ⟨h1 _ (List.mem_map_of_mem (f := fun e : Nat × Nat × Unit => e.1) hs),
      h2 _ (List.mem_map_of_mem (f := fun e : Nat × Nat × Unit => e.2.1) hs)⟩)
    rw [hh.x, hh.y]
    constructor <;> intro a ha <;> obtain ⟨s, hs, rfl⟩ := List.mem_map.mp ha <;> have := k s hs <;> omega

/-- **C82**: any file at all, as long as it does not end in a digit (and its size is not a multiple of the page size, C19),
loaded unweighted as an edge list with any flags: for a given number of threads the result is always the same COO, which has no
entry left uninitialised, has at most as many entries as the file has bytes and labels below `n()`, unless the largest label of
the type is in the file. -/
theorem C82_any_text (page : Nat) (hp : 0 < page) (file : List Byte) (hd : ¬ page ∣ file.length)
    (hend : ∀ c, file.getLast? = some c → isDigit c = false) (lw ow T : Nat) (hT : 0 < T) (cfg : Cfg) (hm : file.length < 2 ^ ow) :
    ∃ c : Coo Unit, (∀ out, LoadEdgeList (mapFile page file) lw ow cfg wNone T out → out = .ok c) ∧ Sound lw c ∧
      c.m ≤ file.length := by
  have hpad := (mapFile_pad (file := file) hp).mpr hd
  have hr : fileReader (mapFile page file) = rd (mapFile page file).bytes.length file := by
    simp [fileReader, rd, mapFile]
  obtain ⟨es, h1, h2, h3⟩ := readEl_exact (μ := mapFile page file) (s := file) (e := (mapFile page file).bytes.length)
    ⟨by simp [mapFile], Nat.le_refl _⟩ (by unfold Readable; omega) hend lw ow cfg hT hm
  refine ⟨cooOf lw cfg false es, fun out hrun => ?_, cooOf_sound h1 (Nat.le_refl _) (Nat.le_refl _) rfl, ?_⟩
  · unfold LoadEdgeList at hrun
    rw [hr] at hrun
    exact h3 out hrun
  · exact h2

/-- The header of a Matrix Market file, on arbitrary text. -/
theorem readMmHeader_any {μ : Mapping} (hpad : 0 < μ.pad) (lw ow : Nat) :
    readMmHeader μ lw ow (fileReader μ) = .error .nyi ∨
    ∃ nr nc nnz s, readMmHeader μ lw ow (fileReader μ) = .ok (nr, nc, nnz, rd μ.bytes.length s) ∧ s <:+ μ.bytes := by
  have hr : Readable μ μ.bytes.length := by unfold Readable; omega
  have hrd : fileReader μ = rd μ.bytes.length μ.bytes := by simp [fileReader, rd]
  have eol : ∀ s : List Byte, eolL s <:+ s := fun s => dropWhile_suffix' _ _
  unfold readMmHeader
  rw [atStr_file, ok_bind]
  cases hb : decide (mmBanner <+: μ.bytes ∧ mmBanner.length < μ.bytes.length) with
  | false => exact .inl rfl
  | true =>
    right
    have v := View.full μ
    have q1 := nextIntL_suffix μ.bytes
    have q2 := (toDigitL_suffix (nextIntL μ.bytes)).trans q1
    generalize hs2 : (toDigitL (nextIntL μ.bytes)).dropWhile isDigit = s2 at q2
    have q3 := (nextIntL_suffix s2).trans q2
    have q4 := (toDigitL_suffix (nextIntL s2)).trans q3
    generalize hs4 : (toDigitL (nextIntL s2)).dropWhile isDigit = s4 at q4
    have q5 := (nextIntL_suffix s4).trans q4
    have q6 := (toDigitL_suffix (nextIntL s4)).trans q5
    generalize hs6 : (toDigitL (nextIntL s4)).dropWhile isDigit = s6 at q6
    have q7 := (eol s6).trans q6
    have q8 := (nextIntL_suffix (eolL s6)).trans q7
    rw [hrd]
    simp only [Bool.not_true, Bool.false_eq_true, if_false]
    rw [moveToNextInt_eq v hr, ok_bind, readInt_wrapU lw (v.of_suffix q1), ok_bind, hs2]
    simp only []
    rw [moveToNextInt_eq (v.of_suffix q2) hr, ok_bind, readInt_wrapU lw (v.of_suffix q3), ok_bind, hs4]
    simp only []
    rw [moveToNextInt_eq (v.of_suffix q4) hr, ok_bind, readInt_wrapU ow (v.of_suffix q5), ok_bind, hs6]
    simp only []
    rw [moveToEol_eq (v.of_suffix q6), ok_bind, moveToNextInt_eq (v.of_suffix q7) hr, ok_bind]
    exact ⟨_, _, _, nextIntL (eolL s6), rfl, q8⟩

/-- What the checks of `read_mm_` let through. -/
theorem mmCheck_cases {ow : Nat} {cfg : Cfg} {nr nc nnz : Nat} (c : Coo W) :
    mmCheck ow cfg nr nc nnz c = .error .error ∨
    (c.nrows ≤ nr ∧ c.ncols ≤ nc ∧ mmCheck ow cfg nr nc nnz c = .ok { c with nrows := nr, ncols := nc, n := max nr nc }) := by
  unfold mmCheck
  by_cases h1 : nr ≥ c.nrows
  · by_cases h2 : nc ≥ c.ncols
    · rw [if_pos h1, if_pos h2]
      generalize (if cfg.sym = true then _ else _ : Bool) = bad
      cases bad with
      | true => exact .inl rfl
      | false =>
        refine .inr ⟨h1, h2, ?_⟩
        rw [if_neg (by simp), show (if nr > nc then nr else nc) = max nr nc by split <;> omega]
    · rw [if_pos h1, if_neg h2]; exact .inl rfl
  · rw [if_neg h1]; exact .inl rfl

/-- **C82**: the same for any file loaded as a Matrix Market file: for a given number of threads, either every execution throws
(`NotYetImplemented` or `Error`), or all of them give the same COO. -/
theorem C82_any_matrix_market (page : Nat) (hp : 0 < page) (file : List Byte) (hd : ¬ page ∣ file.length)
    (hend : ∀ c, file.getLast? = some c → isDigit c = false) (lw ow T : Nat) (hT : 0 < T) (cfg : Cfg) (hm : file.length < 2 ^ ow) :
    ∃ o : M (Coo Unit), (∀ out, LoadMm (mapFile page file) lw ow cfg wNone T out → out = o) ∧
      (o = .error .nyi ∨ o = .error .error ∨ ∃ c, o = .ok c ∧ Sound lw c ∧ c.m ≤ file.length) := by
  have hpad := (mapFile_pad (file := file) hp).mpr hd
  rcases readMmHeader_any (μ := mapFile page file) hpad lw ow with h | ⟨nr, nc, nnz, s, h, hs⟩
  · refine ⟨.error .nyi, fun out hrun => ?_, .inl rfl⟩
    unfold LoadMm ReadMm at hrun
    rw [h] at hrun
    exact hrun
  · have hs' : s <:+ file := hs
    obtain ⟨es, h1, h2, h3⟩ := readEl_exact (μ := mapFile page file) (s := s) (e := (mapFile page file).bytes.length)
      ((View.full _).of_suffix hs) (by unfold Readable; omega) (EndsOk.suffix hend hs') lw ow cfg hT
      (Nat.lt_of_le_of_lt hs'.length_le hm)
    refine ⟨mmCheck ow cfg nr nc nnz (cooOf lw cfg false es), fun out hrun => ?_, .inr ?_⟩
    · unfold LoadMm ReadMm at hrun
      rw [h] at hrun
      obtain ⟨o, ho, rfl⟩ := hrun
      rw [h3 o ho]
      rfl
    · rcases mmCheck_cases (ow := ow) (cfg := cfg) (nr := nr) (nc := nc) (nnz := nnz) (cooOf lw cfg false es) with hk | ⟨k1, k2, hk⟩
      · exact .inl hk
      · exact .inr ⟨_, hk, cooOf_sound h1 k1 k2 rfl, Nat.le_trans h2 hs'.length_le⟩

/-- The classes built from a COO that is what it should be. -/
theorem classes_of_sound (P : Params Unit) (hwk : P.wk = wNone) (hT : 0 < P.T) (μ : Mapping) (fn : List Byte) {t : FileType}
    (ht : usedType μ fn 0 .auto = .ok t) (htt : t = .matrixMarket ∨ t = .edgeList) {c : Coo Unit} (hc : Sound (8 * P.lb) c)
    (hm : c.m < 2 ^ (8 * P.ob)) (hall : ∀ out, (readCoo P {} μ fn 0 .auto).Out out → out = .ok c) (htop : NoTop (8 * P.lb) c)
    (hfit : Spec.OffsetsFit (8 * P.lb) c.n) :
    (readCsr P μ fn 0 .auto).All (fun r => Spec.RowsOf r.1 false c.n (cooEntries c)) ∧
    (readDiGraph P μ fn .auto).All (fun g => Spec.RowsOf g.outG false c.n (cooEntries c) ∧
      Spec.RowsOf g.inG false c.n (Spec.transposed (cooEntries c))) ∧
    (readMatrix P μ fn).All (fun a => Spec.RowsOf a.csr false c.n (cooEntries c) ∧
      Spec.RowsOf a.csc false c.n (Spec.transposed (cooEntries c)) ∧ a.nrows = c.nrows ∧ a.ncols = c.ncols) := by
  have hw : P.wk.wgt = false := by rw [hwk]; rfl
  obtain ⟨l1, l2⟩ := hc.labels htop
  have hh := holds_self hc.x hc.y
  have hcoo : (readCoo P {} μ fn 0 .auto).All (fun c' => Spec.CooIs c' P.wk.wgt (cooEntries c) c.n c.nrows c.ncols) := by
    intro out hout
    refine ⟨c, hall out hout, ?_⟩
    rw [hw]
    exact ⟨hh, rfl, rfl, rfl⟩
  have hlab : ∀ e ∈ cooEntries c, e.1 < c.n ∧ e.2.1 < c.n := by
    intro e he
    refine ⟨l1 _ ?_, l2 _ ?_⟩
    · rw [hh.x]; exact List.mem_map_of_mem (f := fun e : Nat × Nat × Unit => e.1) he
    · rw [hh.y]; exact List.mem_map_of_mem (f := fun e : Nat × Nat × Unit => e.2.1) he
  have hlen : (cooEntries c).length < 2 ^ (8 * P.ob) := by rw [← hh.m]; omega
  have hA := csr_of_coo P hT _ fn _ _ _ _ ht (by rcases htt with h | h <;> simp [h]) hcoo hlab hlen hfit
  have hB := digraph_of_coo P hT _ fn _ _ _ _ ht (by rcases htt with h | h <;> simp [h]) hcoo hlab hlen hfit
  have hC := matrix_of_coo P hT _ fn _ _ _ _ hcoo hlab hlen hfit
  rw [hw] at hA hB hC
  exact ⟨hA, hB, hC⟩

/-- `COO(fn)` of a file of text, from the loader of its format. -/
theorem readCoo_of_load (P : Params Unit) (hwk : P.wk = wNone) (μ : Mapping) (fn : List Byte) {t : FileType}
    (ht : usedType μ fn 0 .auto = .ok t) {o : M (Coo Unit)}
    (h : t = .matrixMarket ∧ (∀ out, LoadMm μ (8 * P.lb) (8 * P.ob) {} wNone P.T out → out = o) ∨
      t = .edgeList ∧ ∀ out, LoadEdgeList μ (8 * P.lb) (8 * P.ob) {} wNone P.T out → out = o) (out : M (Coo Unit))
    (hout : (readCoo P {} μ fn 0 .auto).Out out) : out = o := by
  obtain ⟨o1, rfl, hk⟩ := hout
  rw [ht] at hk
  simp only at hk
  rcases h with ⟨rfl, h⟩ | ⟨rfl, h⟩
  all_goals
    rw [if_pos (by decide)] at hk
    obtain ⟨o2, ⟨o3, ho3, hk'⟩, hk⟩ := hk
    have := h o3 (by rw [← hwk]; exact ho3)
    subst this
    cases o3 with
    | error f => rw [hk'] at hk; exact hk
    | ok c => rw [show o2 = .ok (c, 0) from hk'] at hk; exact hk

/-- **C82**, the classes: `COO(fn)` of such a file is always the same COO, and unless the largest label of the type is in it
or `n()` is too large, `CSR(fn)`, `DiGraph(fn)` and `Matrix(fn)` are valid and hold exactly its entries; in particular nothing
outside of an array is accessed. -/
theorem C82_any_text_classes (P : Params Unit) (hwk : P.wk = wNone) (hT : 0 < P.T) (page : Nat) (hp : 0 < page) (file : List Byte)
    (hd : ¬ page ∣ file.length) (hend : ∀ c, file.getLast? = some c → isDigit c = false) (hm : file.length < 2 ^ (8 * P.ob))
    (fn : List Byte) (hmagic : ¬ str "PIGO" <+: file) (hmtx : ¬ str ".mtx" <:+ fn) (hgraph : ¬ str ".graph" <:+ fn) :
    ∃ c : Coo Unit, Sound (8 * P.lb) c ∧ c.m ≤ file.length ∧
      (∀ out, (readCoo P {} (mapFile page file) fn 0 .auto).Out out → out = .ok c) ∧
      (NoTop (8 * P.lb) c → Spec.OffsetsFit (8 * P.lb) c.n →
        (readCsr P (mapFile page file) fn 0 .auto).All (fun r => Spec.RowsOf r.1 false c.n (cooEntries c)) ∧
        (readDiGraph P (mapFile page file) fn .auto).All (fun g => Spec.RowsOf g.outG false c.n (cooEntries c) ∧
          Spec.RowsOf g.inG false c.n (Spec.transposed (cooEntries c))) ∧
        (readMatrix P (mapFile page file) fn).All (fun a => Spec.RowsOf a.csr false c.n (cooEntries c) ∧
          Spec.RowsOf a.csc false c.n (Spec.transposed (cooEntries c)) ∧ a.nrows = c.nrows ∧ a.ncols = c.ncols)) := by
  obtain ⟨c, h1, h2, h3⟩ := C82_any_text page hp file hd hend (8 * P.lb) (8 * P.ob) P.T hT {} hm
  have ht : usedType (mapFile page file) fn 0 .auto = .ok .edgeList := by
    rw [usedType, if_pos rfl, C45_by_name _ _ _ (fun hh => hmagic (by simpa [mapFile] using hh.1)), if_neg hmtx, if_neg hgraph]
  have hall := readCoo_of_load P hwk (mapFile page file) fn ht (.inr ⟨rfl, h1⟩)
  exact ⟨c, h2, h3, hall, classes_of_sound P hwk hT _ fn ht (.inr rfl) h2 (by omega) hall⟩

/-- **C82**, the classes, for any file named `….mtx`: either `COO(fn)` always throws, or all of them hold the entries of the COO. -/
theorem C82_any_mtx_classes (P : Params Unit) (hwk : P.wk = wNone) (hT : 0 < P.T) (page : Nat) (hp : 0 < page) (file : List Byte)
    (hd : ¬ page ∣ file.length) (hend : ∀ c, file.getLast? = some c → isDigit c = false) (hm : file.length < 2 ^ (8 * P.ob))
    (fn : List Byte) (hmagic : ¬ str "PIGO" <+: file) (hmtx : str ".mtx" <:+ fn) :
    (∃ f, (f = .nyi ∨ f = .error) ∧ ∀ out, (readCoo P {} (mapFile page file) fn 0 .auto).Out out → out = .error f) ∨
    ∃ c : Coo Unit, Sound (8 * P.lb) c ∧ c.m ≤ file.length ∧
      (∀ out, (readCoo P {} (mapFile page file) fn 0 .auto).Out out → out = .ok c) ∧
      (NoTop (8 * P.lb) c → Spec.OffsetsFit (8 * P.lb) c.n →
        (readCsr P (mapFile page file) fn 0 .auto).All (fun r => Spec.RowsOf r.1 false c.n (cooEntries c)) ∧
        (readDiGraph P (mapFile page file) fn .auto).All (fun g => Spec.RowsOf g.outG false c.n (cooEntries c) ∧
          Spec.RowsOf g.inG false c.n (Spec.transposed (cooEntries c))) ∧
        (readMatrix P (mapFile page file) fn).All (fun a => Spec.RowsOf a.csr false c.n (cooEntries c) ∧
          Spec.RowsOf a.csc false c.n (Spec.transposed (cooEntries c)) ∧ a.nrows = c.nrows ∧ a.ncols = c.ncols)) := by
  obtain ⟨o, h1, h2⟩ := C82_any_matrix_market page hp file hd hend (8 * P.lb) (8 * P.ob) P.T hT {} hm
  have ht : usedType (mapFile page file) fn 0 .auto = .ok .matrixMarket := by
    rw [usedType, if_pos rfl, C45_by_name _ _ _ (fun hh => hmagic (by simpa [mapFile] using hh.1)), if_pos hmtx]
  have hall := readCoo_of_load P hwk (mapFile page file) fn ht (.inl ⟨rfl, h1⟩)
  rcases h2 with rfl | rfl | ⟨c, rfl, h2, h3⟩
  · exact .inl ⟨_, .inl rfl, hall⟩
  · exact .inl ⟨_, .inr rfl, hall⟩
  · exact .inr ⟨c, h2, h3, hall, classes_of_sound P hwk hT _ fn ht (.inl rfl) h2 (by omega) hall⟩

/-! ### Labels outside of the arrays -/

theorem run_inc_bad {ow : Nat} {x : List Nat} {n : Nat} : ∀ (l : List Nat) (degs : List Nat), degs.length = n →
    (∀ e ∈ l, e < x.length) → (∃ e ∈ l, ∃ v, x[e]? = some v ∧ n ≤ v) → (∀ d ∈ degs, d + l.length < 2 ^ ow) →
    runActs (incAct ow x) l degs = .error .oob := by
  intro l
  induction l with
  | nil => rintro degs _ _ ⟨e, he, _⟩; cases he
  | cons a l ih =>
    rintro degs hl hx hbad hd
    have ha : x[a]? = some (x[a]'(hx a (by simp))) := List.getElem?_eq_getElem _
    by_cases hv : x[a]'(hx a (by simp)) < n
    · have hv' : x[a]'(hx a (by simp)) < degs.length := by omega
      have hdm := hd _ (List.getElem_mem hv')
      rw [List.length_cons] at hdm
      have hstep : incAct ow x a degs = .ok (degs.set (x[a]'(hx a (by simp))) (degs[x[a]'(hx a (by simp))]'hv' + 1)) := by
        unfold incAct load
        rw [ha]
        simp only [ok_bind, List.getElem?_eq_getElem hv']
        rw [if_pos (by omega), store, if_pos hv']
      rw [runActs, hstep, ok_bind]
      refine ih _ (by rw [List.length_set, hl]) (fun e he => hx e (by simp [he])) ?_ ?_
      · obtain ⟨e, he, v, h1, h2⟩ := hbad
        rcases List.mem_cons.mp he with rfl | he
        · rw [ha] at h1; cases h1; omega
        · exact ⟨e, he, v, h1, h2⟩
      · intro d hdd
        rcases List.mem_or_eq_of_mem_set hdd with h | h
        · have := hd d h; rw [List.length_cons] at this; omega
        · rw [h]; omega
    · have hstep : incAct ow x a degs = .error .oob := by
        unfold incAct load
        rw [ha]
        simp only [ok_bind]
        rw [List.getElem?_eq_none (by omega)]
        rfl
      rw [runActs, hstep]; rfl

/-- **C82**: a COO with a row label outside of `n()` cannot be converted: every execution writes outside of the degrees. -/
theorem C82_label_outside_oob (lw ow T : Nat) (wgt : Bool) (c : Coo W) (hx : c.x.length = c.m)
    (hm : c.m < 2 ^ ow) (hbad : ∃ a ∈ c.x, c.n ≤ a) (out : M (Csr W)) : (convertCoo lw ow T wgt c).Out out → out = .error .oob := by
  rintro ⟨_, ⟨j, _, rfl⟩, o1, ho1, h⟩
  suffices o1 = .error .oob by subst this; exact h
  obtain ⟨_, ⟨jl, _, rfl⟩, ho1⟩ := ho1
  obtain ⟨_, ⟨js, _, rfl⟩, ho1⟩ := ho1
  obtain ⟨_, ⟨ja, _, rfl⟩, ho1⟩ := ho1
  obtain ⟨_, ⟨its0, hits0, rfl⟩, ho1⟩ := ho1
  obtain ⟨o2, ⟨sched, hs, rfl⟩, ho1⟩ := ho1
  have hz : runActs storeAct sched (alloc ja c.n) = .ok (alloc (fun _ => 0) c.n) := by
    refine run_fill (vs := alloc (fun _ => 0) c.n) ?_ _ (by simp)
    refine hs.perm.trans ?_
    have e : (its0.map (fun vs => vs.map (fun v => (v, 0)))).flatten = its0.flatten.map (fun v => (v, 0)) := by
      rw [List.map_flatten]
    rw [e]
    refine (hits0.all.map _).trans (List.Perm.of_eq ?_)
    exact range_eq_blockActs (fun _ => 0) c.n
  rw [hz] at ho1
  obtain ⟨_, ⟨its1, hits1, rfl⟩, ho1⟩ := ho1
  obtain ⟨o3, ⟨sched1, hs1, rfl⟩, ho1⟩ := ho1
  have hp : sched1.Perm (List.range c.m) := hs1.perm.trans hits1.all
  rw [run_inc_bad (n := c.n) sched1 (alloc (fun _ => 0) c.n) (by simp [alloc])
    (fun e he => by rw [hx]; exact List.mem_range.mp (hp.mem_iff.mp he)) ?_ ?_] at ho1
  · exact ho1
  · obtain ⟨a, ha, hn⟩ := hbad
    obtain ⟨i, hi, rfl⟩ := List.mem_iff_getElem.mp ha
    exact ⟨i, hp.mem_iff.mpr (List.mem_range.mpr (by omega)), _, List.getElem?_eq_getElem hi, hn⟩
  · intro d hd
    have : d = 0 := by
      unfold alloc at hd
      obtain ⟨_, _, rfl⟩ := List.mem_map.mp hd
      rfl
    rw [this, hp.length_eq, List.length_range]; omega

/-- What `CSR(fn)` does when `COO(fn)` may give `c`, for an edge list file. -/
theorem csr_oob_of_coo (P : Params Unit) (μ : Mapping) (fn : List Byte) (ht : usedType μ fn 0 .auto = .ok .edgeList) (c : Coo Unit)
    (hc : LoadEdgeList μ (8 * P.lb) (8 * P.ob) {} P.wk P.T (.ok c)) (hT : 0 < P.T) (hx : c.x.length = c.m) (hm : c.m < 2 ^ (8 * P.ob))
    (hbad : ∃ a ∈ c.x, c.n ≤ a) : (readCsr P μ fn 0 .auto).Out (.error .oob) := by
  refine ⟨.ok .edgeList, ht.symm, ?_⟩
  simp only
  rw [if_pos (by decide)]
  refine ⟨.ok (c, 0), ⟨.ok c, hc, rfl⟩, .error .oob, ?_, rfl⟩
  obtain ⟨o, ho⟩ := convertCoo_any (lw := 8 * P.lb) (ow := 8 * P.ob) hT P.wk.wgt c
  rw [← C82_label_outside_oob (8 * P.lb) (8 * P.ob) P.T P.wk.wgt c hx hm hbad o ho]
  exact ho

/-- 32 bit labels, 64 bit ordinals, one thread, no weights. -/
def oneThread : Params Unit where
  T := 1
  lb := 4
  ob := 8
  wk := wNone
  cw := ⟨1, fun _ => [0], fun _ => (), fun _ => True, by decide, fun _ => rfl, fun _ _ => rfl⟩
  stor := .vector

/-- **C82 fails** for a file that ends in a digit: `CSR(fn)` of `1 2⏎3 4` may write outside of its arrays, since the last entry
of the COO inside is left as it was allocated (C18). -/
theorem C82_unterminated_violated : (readCsr oneThread ⟨str "1 2\n3 4", 4089⟩ (str "g.txt") 0 .auto).Out (.error .oob) := by
  obtain ⟨c, h1, h2, h3, h4⟩ := C18_final_newline_violated 3000000000 0
  have hn : c.n ≤ 2 ^ 31 := by
    unfold LoadEdgeList ReadEl at h1
    have h : readElPlan ⟨str "1 2\n3 4", 4089⟩ 32 64 {} wNone 1 (fileReader ⟨str "1 2\n3 4", 4089⟩) =
        .ok { m := 2, threads := [[.setX 0 1, .setY 0 2]], mr := 1, mc := 2 } := by decide
    rw [h] at h1
    obtain ⟨j, sched, hs, h1⟩ := h1
    rw [Interleave.single hs] at h1
    cases h1
    show (3 : Nat) ≤ _
    decide
  refine csr_oob_of_coo oneThread ⟨str "1 2\n3 4", 4089⟩ (str "g.txt") ?_ c h1 (by decide) (by rw [h2, h4]; rfl) (by rw [h4]; decide)
    ⟨3000000000, by rw [h2]; simp, by omega⟩
  decide

/-- **C82 fails** for the largest label: on every edge list file with an edge from the vertex `2^lw - 1`, `CSR(fn)` writes
outside of its arrays in every execution. -/
theorem C82_largest_label_violated (P : Params Unit) (hwk : P.wk = wNone) (hT : 0 < P.T) (μ : Mapping) (hpad : 0 < μ.pad)
    (fn : List Byte) (h : Spec.PlainEdgeFile μ.bytes fn)
    (hlab : ∀ e ∈ Spec.edges μ.bytes, e.1 < 2 ^ (8 * P.lb) ∧ e.2 < 2 ^ (8 * P.lb))
    (hmax : ∃ e ∈ Spec.edges μ.bytes, e.1 = 2 ^ (8 * P.lb) - 1) (hm : (Spec.edges μ.bytes).length < 2 ^ (8 * P.ob)) :
    ∀ out, (readCsr P μ fn 0 .auto).Out out → out = .error .oob := by
  have hh := cooOf_holds (8 * P.lb) {} false ((Spec.edges μ.bytes).map unw)
  rw [storedAll_plain] at hh
  rintro out ⟨o1, rfl, hk⟩
  rw [plain_usedType h] at hk
  simp only at hk
  rw [if_pos (by decide)] at hk
  obtain ⟨o2, ho2, hk⟩ := hk
  obtain ⟨p, rfl, rfl⟩ := readCooFmt_plain P hwk hT {} μ hpad fn h hlab (by rw [storedAll_plain]; simpa using hm) o2 ho2
  obtain ⟨o3, ho3, hk⟩ := hk
  have hb : 0 < 2 ^ (8 * P.lb) := Nat.two_pow_pos _
  rw [C82_label_outside_oob (8 * P.lb) (8 * P.ob) P.T P.wk.wgt _ (by rw [hh.x, hh.m, List.length_map])
    (by rw [hh.m, List.length_map]; exact hm) ?_ o3 ho3] at hk
  · exact hk
  · obtain ⟨e, he, he'⟩ := hmax
    refine ⟨e.1, ?_, ?_⟩
    · rw [hh.x, List.map_map]; exact List.mem_map_of_mem (f := fun e : Nat × Nat => e.1) he
    · have h1 : ∀ k : Nat, k % 2 ^ (8 * P.lb) < 2 ^ (8 * P.lb) := fun k => Nat.mod_lt _ hb
      show max _ _ ≤ _
      have a1 := h1 (Spec.maxOf ((prims ({} : Cfg) ((Spec.edges μ.bytes).map unw)).map (·.1)) + 1)
      have a2 := h1 (Spec.maxOf ((prims ({} : Cfg) ((Spec.edges μ.bytes).map unw)).map (·.2.1)) + 1)
      rw [he']
      exact Nat.max_le.mpr ⟨Nat.le_sub_one_of_lt a1, Nat.le_sub_one_of_lt a2⟩

theorem execPlan_m {lw : Nat} {wgt : Bool} {j : Junk W} {p : Plan W} {sched : List (Act W)} {c : Coo W}
    (h : execPlan lw wgt j p sched = .ok c) : c.m = p.m := by
  unfold execPlan at h
  cases hr : runActs stepAct sched (allocCoo wgt j p.m) with
  | error f => rw [hr] at h; cases h
  | ok mem => rw [hr] at h; cases h; rfl

/-- **C82**: "for a given number of threads" cannot be dropped.  One thread reads two entries from `1⏎2⏎3⏎4⏎`, two threads read
one. -/
theorem C82_threads_matter (out1 out2 : M (Coo Unit)) (h1 : LoadEdgeList (mapFile 4096 (str "1\n2\n3\n4\n")) 32 64 {} wNone 1 out1)
    (h2 : LoadEdgeList (mapFile 4096 (str "1\n2\n3\n4\n")) 32 64 {} wNone 2 out2) :
    ∃ c1 c2, out1 = .ok c1 ∧ out2 = .ok c2 ∧ c1.m = 2 ∧ c2.m = 1 := by
  obtain ⟨c1, rfl⟩ := C19_memory_safe 4096 (by omega) _ (by decide) 32 64 1 (by omega) {} (by decide) out1 h1
  obtain ⟨c2, rfl⟩ := C19_memory_safe 4096 (by omega) _ (by decide) 32 64 2 (by omega) {} (by decide) out2 h2
  refine ⟨c1, c2, rfl, rfl, ?_, ?_⟩
  · unfold LoadEdgeList ReadEl at h1
    rw [show readElPlan (mapFile 4096 (str "1\n2\n3\n4\n")) 32 64 {} wNone 1 (fileReader (mapFile 4096 (str "1\n2\n3\n4\n"))) =
      .ok { m := 2, threads := [[.setX 0 1, .setY 0 2, .setX 1 3, .setY 1 4]], mr := 3, mc := 4 } by decide] at h1
    obtain ⟨j, sched, _, h1⟩ := h1
    exact execPlan_m h1.symm
  · unfold LoadEdgeList ReadEl at h2
    rw [show readElPlan (mapFile 4096 (str "1\n2\n3\n4\n")) 32 64 {} wNone 2 (fileReader (mapFile 4096 (str "1\n2\n3\n4\n"))) =
      .ok { m := 1, threads := [[.setX 0 1, .setY 0 2], []], mr := 1, mc := 2 } by decide] at h2
    obtain ⟨j, sched, _, h2⟩ := h2
    exact execPlan_m h2.symm

/-! ### Concrete instances -/

/-- Not an edge list at all. -/
def exMess : List Byte := str "hello 1 world\n\n7 # 3x\n12 5 12 12\n-4,9;\n0\n9 9."

example : ¬ 4096 ∣ exMess.length ∧ (∀ c, exMess.getLast? = some c → isDigit c = false) ∧ exMess.length < 2 ^ (8 * oneThread.ob) ∧
    ¬ str "PIGO" <+: exMess ∧ ¬ str ".mtx" <:+ str "g.txt" ∧ ¬ str ".graph" <:+ str "g.txt" := by decide

/-- What is loaded from it by one thread and by three. -/
example : (readElPlan (mapFile 4096 exMess) 32 64 {} wNone 1 (fileReader (mapFile 4096 exMess))).map (fun p => (p.m, p.mr, p.mc)) =
      .ok (4, 12, 9) ∧
    (readElPlan (mapFile 4096 exMess) 32 64 {} wNone 3 (fileReader (mapFile 4096 exMess))).map (fun p => (p.m, p.mr, p.mc)) =
      .ok (4, 12, 9) := by
  decide

/-- A malformed Matrix Market file that is accepted, and one that is rejected. -/
def exMessMm (k : String) : List Byte := str ("%%MatrixMarket matrix coordinate pattern weird\n% c 5\n9 x 7\n" ++ k ++ " z\n1 a 2\n\n3\n4 5 6 # 1\n")

example : ¬ 4096 ∣ (exMessMm "2").length ∧ (∀ c, (exMessMm "2").getLast? = some c → isDigit c = false) ∧
    ¬ str "PIGO" <+: exMessMm "2" ∧ str ".mtx" <:+ str "a.mtx" := by decide

/-- A file with the largest label of 8 bits. -/
def exTop : Mapping := ⟨str "255 1\n2 3\n", 4085⟩

example : Spec.PlainEdgeFile exTop.bytes (str "g.txt") ∧ 0 < exTop.pad ∧
    (∃ e ∈ Spec.edges exTop.bytes, e.1 = 2 ^ (8 * 1) - 1) ∧ ∀ e ∈ Spec.edges exTop.bytes, e.1 < 2 ^ (8 * 1) ∧ e.2 < 2 ^ (8 * 1) :=
  ⟨⟨⟨by
    have : ∀ l ∈ Spec.lines exTop.bytes, Spec.ints l = [] ∨ (Spec.edge l).isSome := by decide
    intro l hl
    rcases this l hl with h | h
    · exact .inl h
    · exact .inr (Option.isSome_iff_exists.mp h), by decide⟩, by decide, by decide, by decide⟩, by decide, by decide, by decide⟩

end Pigo
