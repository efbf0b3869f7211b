import Verif.Lemmas.CrashBlank
import Verif.Lemmas.CrashText
import Verif.Lemmas.CrashReach
import Verif.Props.Write
import Verif.Props.Robust

/-!
# C89: what an interrupted save leaves
-/

namespace Pigo

open Spec

variable {W : Type}

/-! ## the contents at every moment -/

/-- C89: at every moment of a save of a COO, CSR, DiGraph or Tensor with any number of threads, the file has its old contents, or is
empty, or has its final size, with all parts before some part written and this part written in part; and what the save returns
is what is in the file at the end. -/
theorem C89_contents (old : List Byte) (T lb ob : Nat) (hT : 0 < T) (wgt : Bool) (cw : Codec W) :
    (∀ c : Coo W, FitsCoo lb ob wgt cw c →
      (saveCooO old T lb ob wgt cw c).run = saveCoo T lb ob wgt cw c ∧ (saveCooO old T lb ob wgt cw c).run.All (fun bs => bs = cooFile lb ob wgt cw c) ∧
      ∀ s, (saveCooO old T lb ob wgt cw c).seen s → Interrupted old (cooParts lb ob wgt cw c) s) ∧
    (∀ c : Csr W, FitsCsr lb ob wgt cw c →
      (saveCsrO old T lb ob wgt cw c).run = saveCsr T lb ob wgt cw c ∧ (saveCsrO old T lb ob wgt cw c).run.All (fun bs => bs = csrFile lb ob wgt cw c) ∧
      ∀ s, (saveCsrO old T lb ob wgt cw c).seen s → Interrupted old (csrParts lb ob wgt cw c) s) ∧
    (∀ g : DiGraph W, FitsCsr lb ob wgt cw g.inG → FitsCsr lb ob wgt cw g.outG →
      (saveDiGraphO old T lb ob wgt cw g).run = saveDiGraph T lb ob wgt cw g ∧
      (saveDiGraphO old T lb ob wgt cw g).run.All (fun bs => bs = digraphFile lb ob wgt cw g) ∧
      ∀ s, (saveDiGraphO old T lb ob wgt cw g).seen s → Interrupted old (digraphParts lb ob wgt cw g) s) ∧
    (∀ t : Tensor W, FitsTensor lb ob wgt cw t →
      (saveTensorO old T lb ob wgt cw t).run = saveTensor T lb ob wgt cw t ∧
      (saveTensorO old T lb ob wgt cw t).run.All (fun bs => bs = tensorFile lb ob wgt cw t) ∧
      ∀ s, (saveTensorO old T lb ob wgt cw t).seen s → Interrupted old (tensorParts lb ob wgt cw t) s) :=
  ⟨fun c h => ⟨saveCooO_run .., saveCooO_seg hT cw h⟩, fun c h => ⟨saveCsrO_run .., saveCsrO_seg hT cw h⟩,
    fun g hi ho => ⟨saveDiGraphO_run .., saveDiGraphO_seg hT cw hi ho⟩, fun t h => ⟨saveTensorO_run .., saveTensorO_seg hT cw h⟩⟩

example := (C89_contents (str "old") 3 4 8 (by decide) true (codecNat 1 (by decide))).2.1 binCsr binCsr_fits

/-- C89: each prefix of the new file does occur, followed by what the file is filled with when it is opened: an interruption can leave
any of them, so none of the states above can be excluded. -/
theorem C89_every_prefix (old : List Byte) (T lb ob : Nat) (hT : 0 < T) (wgt : Bool) (cw : Codec W) :
    (∀ c : Coo W, FitsCoo lb ob wgt cw c → ∀ j, j ≤ (cooFile lb ob wgt cw c).length →
      (saveCooO old T lb ob wgt cw c).seen ((cooFile lb ob wgt cw c).take j ++ (blank (cooFile lb ob wgt cw c).length).drop j)) ∧
    (∀ c : Csr W, FitsCsr lb ob wgt cw c → ∀ j, j ≤ (csrFile lb ob wgt cw c).length →
      (saveCsrO old T lb ob wgt cw c).seen ((csrFile lb ob wgt cw c).take j ++ (blank (csrFile lb ob wgt cw c).length).drop j)) ∧
    (∀ g : DiGraph W, FitsCsr lb ob wgt cw g.inG → FitsCsr lb ob wgt cw g.outG → ∀ j, j ≤ (digraphFile lb ob wgt cw g).length →
      (saveDiGraphO old T lb ob wgt cw g).seen ((digraphFile lb ob wgt cw g).take j ++ (blank (digraphFile lb ob wgt cw g).length).drop j)) ∧
    (∀ t : Tensor W, FitsTensor lb ob wgt cw t → ∀ j, j ≤ (tensorFile lb ob wgt cw t).length →
      (saveTensorO old T lb ob wgt cw t).seen ((tensorFile lb ob wgt cw t).take j ++ (blank (tensorFile lb ob wgt cw t).length).drop j)) :=
  ⟨fun _ h _ hj => saveCooO_reach hT cw h hj, fun _ h _ hj => saveCsrO_reach hT cw h hj, fun _ hi ho _ hj => saveDiGraphO_reach hT cw hi ho hj,
    fun _ h _ hj => saveTensorO_reach hT cw h hj⟩

example := (C89_every_prefix (str "old") 3 4 8 (by decide) true (codecNat 1 (by decide))).2.1 binCsr binCsr_fits 9

/-! ## loading what is left -/

/-- C89: what an interrupted save of a COO with at least one entry leaves is either the old file, an empty file, or a file that, when loaded
as a COO file, throws `Error` or gives a COO with sizes that are not larger than those saved and arrays of `m` entries.
Nothing is read outside of the mapping. -/
theorem C89_coo_load (P : Params W) (hT' : 0 < P.T) (hlb : 0 < P.lb) (cfg : Cfg) (T : Nat) (hT : 0 < T) (old : List Byte) (c : Coo W)
    (h : FitsCoo P.lb P.ob P.wk.wgt P.cw c) (hm : 0 < c.m) (s : List Byte) (hs : (saveCooO old T P.lb P.ob P.wk.wgt P.cw c).seen s)
    (fn : List Byte) (pad : Nat) :
    s = old ∨ s = [] ∨ (readCoo P cfg ⟨s, pad⟩ fn 0 .cooBin).Throws ∨
    (readCoo P cfg ⟨s, pad⟩ fn 0 .cooBin).All (fun r => r.m ≤ c.m ∧ r.nrows ≤ c.nrows ∧ r.ncols ≤ c.ncols ∧ r.n ≤ c.n ∧
      r.x.length = r.m ∧ r.y.length = r.m) := by
  have hpos : 0 < (cooParts P.lb P.ob P.wk.wgt P.cw c).flatten.length := by
    simp [cooParts, str]
  cases (saveCooO_seg (old := old) hT P.cw h).2 s hs with
  | untouched => exact .inl rfl
  | emptied => exact .inr (.inl rfl)
  | during k hk _ hb =>
    have ht := torn_of_during hpos hb
    rw [cooParts_flatten] at ht
    right; right
    rcases torn_coo hT' P.cw h hlb hm ht pad with ht | ht
    · exact .inl (readCoo_bin_throws rfl ht)
    · refine .inr (readCoo_bin_all rfl (ht.mono (fun r hr => ?_)))
      obtain ⟨h1, h2, h3, h4, h5⟩ := hr
      refine ⟨h2, h3, h4, h5, ?_, ?_⟩ <;> (rw [h1]; simp only [cooIn, decArr_length])

/-- C89, CSR: also with no entries. -/
theorem C89_csr_load (P : Params W) (hT' : 0 < P.T) (hob : 0 < P.ob) (T : Nat) (hT : 0 < T) (old : List Byte) (c : Csr W)
    (h : FitsCsr P.lb P.ob P.wk.wgt P.cw c) (s : List Byte) (hs : (saveCsrO old T P.lb P.ob P.wk.wgt P.cw c).seen s)
    (fn : List Byte) (pad : Nat) :
    s = old ∨ s = [] ∨ (readCsr P ⟨s, pad⟩ fn 0 .csrBin).Throws ∨
    (readCsr P ⟨s, pad⟩ fn 0 .csrBin).All (fun r => r.1.m ≤ c.m ∧ r.1.nrows ≤ c.nrows ∧ r.1.ncols ≤ c.ncols ∧ r.1.n ≤ c.n ∧
      r.1.offsets.length = r.1.n + 1 ∧ r.1.endpoints.length = r.1.m) := by
  have hpos : 0 < (csrParts P.lb P.ob P.wk.wgt P.cw c).flatten.length := by
    simp [csrParts, str]
  cases (saveCsrO_seg (old := old) hT P.cw h).2 s hs with
  | untouched => exact .inl rfl
  | emptied => exact .inr (.inl rfl)
  | during k hk _ hb =>
    have ht := torn_of_during hpos hb
    rw [csrParts_flatten] at ht
    right; right
    rcases torn_csr hT' P.cw h hob ht pad with ht | ht
    · exact .inl ((readCsr_bin rfl).1 ht)
    · refine .inr ((readCsr_bin rfl).2 _ (ht.mono (fun r hr => ?_)))
      obtain ⟨h1, h2, h3, h4, h5, h6⟩ := hr
      refine ⟨h2, h3, h4, h5, h6, ?_⟩
      rw [h1]; simp only [csrIn, decArr_length]

/-- C89, Tensor. -/
theorem C89_tensor_load (T T' lb ob : Nat) (hT : 0 < T) (hT' : 0 < T') (hlb : 0 < lb) (wgt : Bool) (cw : Codec W) (old : List Byte) (t : Tensor W)
    (h : FitsTensor lb ob wgt cw t) (ho : 0 < t.order) (hm : 0 < t.m) (s : List Byte) (hs : (saveTensorO old T lb ob wgt cw t).seen s) (pad : Nat) :
    s = old ∨ s = [] ∨ (readBinTensor T' lb ob wgt cw ⟨s, pad⟩ 0).Throws ∨
    (readBinTensor T' lb ob wgt cw ⟨s, pad⟩ 0).All (fun r => r.m ≤ t.m ∧ r.order ≤ t.order ∧ r.c.length = r.order * r.m) := by
  have hpos : 0 < (tensorParts lb ob wgt cw t).flatten.length := by
    simp [tensorParts, str]
  cases (saveTensorO_seg (old := old) hT cw h).2 s hs with
  | untouched => exact .inl rfl
  | emptied => exact .inr (.inl rfl)
  | during k hk _ hb =>
    have ht := torn_of_during hpos hb
    rw [tensorParts_flatten] at ht
    right; right
    rcases torn_tensor hT' cw h hlb ho hm ht pad with ht | ht
    · exact .inl ht
    · exact .inr (ht.mono (fun r hr => hr.2))

example := C89_csr_load binParams (by decide) (by decide) 3 (by decide) (str "old") binCsr binCsr_fits
example := C89_coo_load { T := 4, lb := 4, ob := 8, wk := wSint 32, cw := codecInt 4 (by decide), stor := .pointer } (by decide) (by decide) {} 3
  (by decide) (str "old") binCoo binCoo_fits (by decide)
example := C89_tensor_load 3 5 4 8 (by decide) (by decide) (by decide) true (codecNat 8 (by decide)) (str "old") binTensor
  binTensor_fits (by decide) (by decide)

/-! ## the old contents are lost -/

/-- C89: a save over an old file can leave an empty file: the old contents are gone before anything new is there. The property
"the old or the new object" does not hold. -/
theorem C89_old_contents_violated (old : List Byte) (T lb ob : Nat) (wgt : Bool) (cw : Codec W) (c : Coo W) (r : Csr W) (g : DiGraph W) (t : Tensor W) :
    (saveCooO old T lb ob wgt cw c).seen [] ∧ (saveCsrO old T lb ob wgt cw r).seen [] ∧ (saveDiGraphO old T lb ob wgt cw g).seen [] ∧
    (saveTensorO old T lb ob wgt cw t).seen [] := by
  refine ⟨.inl (.inr ⟨?_, .inl rfl⟩), .inl (.inr ⟨csrSaveSize_pos .., .inl rfl⟩), .inl (.inr ⟨?_, .inl rfl⟩), .inl (.inr ⟨?_, .inl rfl⟩)⟩
  · unfold cooSaveSize
    have : 0 < cooMagic.length := by decide
    omega
  · have : 0 < digraphMagic.length := by decide
    omega
  · unfold tensorSaveSize
    have : 0 < tensorMagic.length := by decide
    omega

/-! ## the new contents are wrong without an error -/

theorem header_shape {a rest : List Byte} {n : Nat} {x y : Byte} {l : List (List Byte)} (h : l.flatten = a ++ x :: y :: rest) :
    stage n l = a ++ x :: y :: (rest ++ (blank n).drop l.flatten.length) := by
  rw [stage]
  conv => lhs; lhs; rw [h]
  simp

/-- A field of the header of an unfinished file. -/
theorem stage_field {n : Nat} {l : List (List Byte)} {pad p k v : Nat} {pre post : List Byte} (hn : 0 < n) (hl : l.flatten.length ≤ n)
    (h : l.flatten = pre ++ (encLE k v ++ post)) (hp : pre.length = p) (hv : v < 256 ^ k) :
    decLE (fld (Mapping.mem ⟨stage n l, pad⟩) p k) = v := by
  have hlen : (stage n l).length = n := stage_length hn hl
  have hll : l.flatten.length = p + (k + post.length) := by rw [h]; simp [hp]
  rw [mem_slice (μ := ⟨stage n l, pad⟩) (by show p + k ≤ (stage n l).length; omega)]
  show decLE (fld (stage n l) p k) = v
  rw [fld_part (pre := pre) (f := encLE k v) (post := post ++ (blank n).drop l.flatten.length) ?_ hp (encLE_length ..), decLE_encLE hv]
  rw [stage]
  conv => lhs; lhs; rw [h]
  simp

/-- A field behind the header of an unfinished file. -/
theorem stage_blank {n : Nat} {l : List (List Byte)} {pad p k : Nat} (hl : l.flatten.length ≤ p) (h : p + k < n) :
    fld (Mapping.mem ⟨stage n l, pad⟩) p k = List.replicate k 0 := by
  have hlen : (stage n l).length = n := stage_length (by omega) (by omega)
  rw [mem_slice (μ := ⟨stage n l, pad⟩) (by show p + k ≤ (stage n l).length; omega)]
  exact blank_field h hl

theorem size_byte {k : Nat} (h : k < 256) : ∃ a : Byte, a.toNat = k ∧ encLE 1 k = [a] := by
  refine ⟨UInt8.ofNat k, ?_, ?_⟩
  · simp; omega
  · simp only [encLE, List.cons.injEq, and_true]
    rw [Nat.mod_eq_of_lt h]

/-- C89: an interrupted save of any COO with at least one entry can leave a file that is loaded without an error, with the dimensions and
the number of entries that were saved, and with all sources zero. -/
theorem C89_coo_silent_violated (P : Params W) (hT' : 0 < P.T) (hlb : 0 < P.lb ∧ P.lb < 256) (hob : P.ob < 256) (T : Nat) (old : List Byte) (c : Coo W)
    (h : FitsCoo P.lb P.ob P.wk.wgt P.cw c) (hm : 0 < c.m) :
    ∃ s, (saveCooO old T P.lb P.ob P.wk.wgt P.cw c).seen s ∧ ∀ cfg fn pad ft, ft = .auto ∨ ft = .cooBin →
      (readCoo P cfg ⟨s, pad⟩ fn 0 ft).All (fun r => r.m = c.m ∧ r.nrows = c.nrows ∧ r.ncols = c.ncols ∧ r.n = c.n ∧
        r.x = List.replicate c.m 0) := by
  refine ⟨_, saveCooO_header P.cw h, fun cfg fn pad ft hft => ?_⟩
  have hlen := cooBytes_length P.cw h
  rw [cooBytes_eq] at hlen
  have l11 : cooMagic.length = 11 := by decide
  have hsz : cooSaveSize P.lb P.ob P.wk.wgt P.cw c = 13 + 3 * P.lb + P.ob + 2 * (P.lb * c.m) + weightSize P.wk.wgt P.cw c.m := by
    unfold cooSaveSize
    rw [l11]
    omega
  rw [hsz] at hlen
  have hlm : 0 < P.lb * c.m := Nat.mul_pos hlb.1 hm
  obtain ⟨a, ha, ea⟩ := size_byte hlb.2
  obtain ⟨b, hb, eb⟩ := size_byte hob
  rw [← cooPartsM_eq, hlen]
  generalize hN : 13 + 3 * P.lb + P.ob + 2 * (P.lb * c.m) + weightSize P.wk.wgt P.cw c.m = N at *
  have hflat : ((cooPartsM P.lb P.ob P.wk.wgt P.cw c).take 7).flatten =
      cooMagic ++ encLE 1 P.lb ++ encLE 1 P.ob ++ encLE P.lb c.nrows ++ encLE P.lb c.ncols ++ encLE P.lb c.n ++ encLE P.ob c.m := by
    simp [cooPartsM]
  generalize (cooPartsM P.lb P.ob P.wk.wgt P.cw c).take 7 = l at *
  have hfl : l.flatten.length = 13 + 3 * P.lb + P.ob := by
    rw [hflat]; simp only [List.length_append, encLE_length, l11]; omega
  have hNpos : 0 < N := by omega
  have e1 : decLE (fld (Mapping.mem ⟨stage N l, pad⟩) 13 P.lb) = c.nrows :=
    stage_field hNpos (by omega) (pre := cooMagic ++ encLE 1 P.lb ++ encLE 1 P.ob) (by rw [hflat]; simp only [List.append_assoc]; rfl) (by simp [l11]) h.nrows
  have e2 : decLE (fld (Mapping.mem ⟨stage N l, pad⟩) (13 + P.lb) P.lb) = c.ncols :=
    stage_field hNpos (by omega) (pre := cooMagic ++ encLE 1 P.lb ++ encLE 1 P.ob ++ encLE P.lb c.nrows) (by rw [hflat]; simp only [List.append_assoc]; rfl)
      (by simp [l11]; omega) h.ncols
  have e3 : decLE (fld (Mapping.mem ⟨stage N l, pad⟩) (13 + 2 * P.lb) P.lb) = c.n :=
    stage_field hNpos (by omega) (pre := cooMagic ++ encLE 1 P.lb ++ encLE 1 P.ob ++ encLE P.lb c.nrows ++ encLE P.lb c.ncols)
      (by rw [hflat]; simp only [List.append_assoc]; rfl) (by simp [l11]; omega) h.n
  have e4 : decLE (fld (Mapping.mem ⟨stage N l, pad⟩) (13 + 3 * P.lb) P.ob) = c.m :=
    stage_field hNpos (by omega) (pre := cooMagic ++ encLE 1 P.lb ++ encLE 1 P.ob ++ encLE P.lb c.nrows ++ encLE P.lb c.ncols ++ encLE P.lb c.n) (post := [])
      (by rw [hflat]; simp only [List.append_assoc, List.append_nil]) (by simp [l11]; omega) h.m
  have e5 : fld (Mapping.mem ⟨stage N l, pad⟩) (13 + 3 * P.lb + P.ob) (P.lb * c.m) = List.replicate (P.lb * c.m) 0 := stage_blank (by omega) (by omega)
  have hshape : stage N l = cooMagic ++ a :: b :: (encLE P.lb c.nrows ++ encLE P.lb c.ncols ++ encLE P.lb c.n ++ encLE P.ob c.m ++ (blank N).drop l.flatten.length) :=
    header_shape (by rw [hflat, ea, eb]; simp)
  have hmem : (Mapping.mem ⟨stage N l, pad⟩).length = N + pad := by
    rw [Mapping.mem_length]; show (stage N l).length + pad = _; rw [stage_length hNpos (by omega)]
  refine readCoo_bin_all ?_ (R.All.mono (P := fun r => r.1 = cooIn P.lb P.ob P.wk.wgt P.cw (Mapping.mem ⟨stage N l, pad⟩)) ?_ (fun r hr => ?_))
  · unfold usedType
    rcases hft with rfl | rfl
    · rw [if_pos rfl]
      exact C45_magic _ _ _ (cooMagic, .cooBin) (by simp [magics, cooMagic, csrMagic]) (hasAt_zero hshape (by simp))
    · rfl
  · rw [← ha, ← hb]
    refine readBinCoo_slice hT' a b P.cw hshape ?_
    rw [ha, hb, e4, hmem]
    omega
  · rw [hr]
    simp only [cooIn, e1, e2, e3, e4, e5]
    exact ⟨trivial, trivial, trivial, trivial, decArr_zeros ..⟩

/-- C89, CSR: what is left is loaded without an error, with the `n` and `m` that were saved, and all offsets are zero. -/
theorem C89_csr_silent_violated (P : Params W) (hT' : 0 < P.T) (hlb : 0 < P.lb ∧ P.lb < 256) (hob : P.ob < 256) (T : Nat) (old : List Byte) (c : Csr W)
    (h : FitsCsr P.lb P.ob P.wk.wgt P.cw c) (hm : 0 < c.m) :
    ∃ s, (saveCsrO old T P.lb P.ob P.wk.wgt P.cw c).seen s ∧ ∀ fn pad ft, ft = .auto ∨ ft = .csrBin →
      (readCsr P ⟨s, pad⟩ fn 0 ft).All (fun r => r.1.m = c.m ∧ r.1.nrows = c.nrows ∧ r.1.ncols = c.ncols ∧ r.1.n = c.n ∧
        r.1.offsets = List.replicate (c.n + 1) 0 ∧ ¬ ValidCsr r.1 P.wk.wgt) := by
  refine ⟨_, saveCsrO_header P.cw h, fun fn pad ft hft => ?_⟩
  have hlen := csrBytes_length P.cw h
  rw [csrBytes_eq] at hlen
  have l11 : csrMagic.length = 11 := by decide
  have hsucc : succL P.lb c.n = c.n + 1 := succL_eq h.room
  have hsz : csrSaveSize P.lb P.ob P.wk.wgt P.cw c = 13 + P.lb + P.ob + P.lb + P.lb + P.ob * (c.n + 1) + P.lb * c.m + weightSize P.wk.wgt P.cw c.m := by
    unfold csrSaveSize
    rw [l11, hsucc]
    omega
  rw [hsz] at hlen
  have hlm : 0 < P.lb * c.m := Nat.mul_pos hlb.1 hm
  obtain ⟨a, ha, ea⟩ := size_byte hlb.2
  obtain ⟨b, hb, eb⟩ := size_byte hob
  rw [← csrPartsM_eq, hlen]
  generalize hN : 13 + P.lb + P.ob + P.lb + P.lb + P.ob * (c.n + 1) + P.lb * c.m + weightSize P.wk.wgt P.cw c.m = N at *
  have hflat : ((csrPartsM P.lb P.ob P.wk.wgt P.cw c).take 7).flatten =
      csrMagic ++ encLE 1 P.lb ++ encLE 1 P.ob ++ encLE P.lb c.n ++ encLE P.ob c.m ++ encLE P.lb c.nrows ++ encLE P.lb c.ncols := by
    simp [csrPartsM]
  generalize (csrPartsM P.lb P.ob P.wk.wgt P.cw c).take 7 = l at *
  have hfl : l.flatten.length = 13 + P.lb + P.ob + P.lb + P.lb := by
    rw [hflat]; simp only [List.length_append, encLE_length, l11]
  have hNpos : 0 < N := by omega
  have e1 : decLE (fld (Mapping.mem ⟨stage N l, pad⟩) 13 P.lb) = c.n :=
    stage_field hNpos (by omega) (pre := csrMagic ++ encLE 1 P.lb ++ encLE 1 P.ob) (by rw [hflat]; simp only [List.append_assoc]; rfl) (by simp [l11]) h.n
  have e2 : decLE (fld (Mapping.mem ⟨stage N l, pad⟩) (13 + P.lb) P.ob) = c.m :=
    stage_field hNpos (by omega) (pre := csrMagic ++ encLE 1 P.lb ++ encLE 1 P.ob ++ encLE P.lb c.n) (by rw [hflat]; simp only [List.append_assoc]; rfl)
      (by simp [l11]; omega) h.m
  have e3 : decLE (fld (Mapping.mem ⟨stage N l, pad⟩) (13 + P.lb + P.ob) P.lb) = c.nrows :=
    stage_field hNpos (by omega) (pre := csrMagic ++ encLE 1 P.lb ++ encLE 1 P.ob ++ encLE P.lb c.n ++ encLE P.ob c.m)
      (by rw [hflat]; simp only [List.append_assoc]; rfl) (by simp [l11]; omega) h.nrows
  have e4 : decLE (fld (Mapping.mem ⟨stage N l, pad⟩) (13 + P.lb + P.ob + P.lb) P.lb) = c.ncols :=
    stage_field hNpos (by omega) (pre := csrMagic ++ encLE 1 P.lb ++ encLE 1 P.ob ++ encLE P.lb c.n ++ encLE P.ob c.m ++ encLE P.lb c.nrows) (post := [])
      (by rw [hflat]; simp only [List.append_assoc, List.append_nil]) (by simp [l11]; omega) h.ncols
  have e5 : fld (Mapping.mem ⟨stage N l, pad⟩) (13 + P.lb + P.ob + P.lb + P.lb) (P.ob * (c.n + 1)) = List.replicate (P.ob * (c.n + 1)) 0 :=
    stage_blank (by omega) (by omega)
  have hshape : stage N l = csrMagic ++ a :: b :: (encLE P.lb c.n ++ encLE P.ob c.m ++ encLE P.lb c.nrows ++ encLE P.lb c.ncols ++ (blank N).drop l.flatten.length) :=
    header_shape (by rw [hflat, ea, eb]; simp)
  have hmem : (Mapping.mem ⟨stage N l, pad⟩).length = N + pad := by
    rw [Mapping.mem_length]; show (stage N l).length + pad = _; rw [stage_length hNpos (by omega)]
  refine (readCsr_bin ?_).2 _ (R.All.mono (P := fun r => r.1 = csrIn P.lb P.ob P.wk.wgt P.cw (Mapping.mem ⟨stage N l, pad⟩)) ?_ (fun r hr => ?_))
  · unfold usedType
    rcases hft with rfl | rfl
    · rw [if_pos rfl]
      exact C45_magic _ _ _ (csrMagic, .csrBin) (by simp [magics, cooMagic, csrMagic]) (hasAt_zero hshape (by simp))
    · rfl
  · rw [← ha, ← hb]
    refine readBinCsr_slice hT' a b P.cw hshape (n := c.n) (m := c.m) (by rw [ha, e1]) (by rw [ha, hb, e2]) ?_
    rw [ha, hb, hmem, hsucc]
    omega
  · have hoff : (csrIn P.lb P.ob P.wk.wgt P.cw (Mapping.mem ⟨stage N l, pad⟩)).offsets = List.replicate (c.n + 1) 0 := by
      simp only [csrIn, e1, hsucc, e5, decArr_zeros]
    rw [hr]
    refine ⟨e2, e3, e4, e1, hoff, fun hv => ?_⟩
    have h1 : off (csrIn P.lb P.ob P.wk.wgt P.cw (Mapping.mem ⟨stage N l, pad⟩)) (csrIn P.lb P.ob P.wk.wgt P.cw (Mapping.mem ⟨stage N l, pad⟩)).n =
      (csrIn P.lb P.ob P.wk.wgt P.cw (Mapping.mem ⟨stage N l, pad⟩)).m := hv.last
    rw [off, hoff] at h1
    have h2 : (csrIn P.lb P.ob P.wk.wgt P.cw (Mapping.mem ⟨stage N l, pad⟩)).m = c.m := e2
    rw [h2, List.getD_eq_getElem?_getD, List.getElem?_replicate] at h1
    split at h1 <;> simp at h1 <;> omega

/-- C89, Tensor: what is left is loaded without an error, with the `order` and `m` that were saved, and all coordinates but the last are zero. -/
theorem C89_tensor_silent_violated (T T' lb ob : Nat) (hT' : 0 < T') (hlb : 0 < lb ∧ lb < 256) (hob : ob < 256) (wgt : Bool) (cw : Codec W)
    (hcw : cw.size < 256) (old : List Byte) (t : Tensor W)
    (h : FitsTensor lb ob wgt cw t) (ho : 0 < t.order) (hm : 0 < t.m) :
    ∃ s, (saveTensorO old T lb ob wgt cw t).seen s ∧ ∀ pad,
      (readBinTensor T' lb ob wgt cw ⟨s, pad⟩ 0).All (fun r => r.m = t.m ∧ r.order = t.order ∧ r.c.length = t.order * t.m ∧
        ∀ i, i + 1 < t.order * t.m → r.c[i]? = some 0) := by
  refine ⟨_, saveTensorO_header cw h, fun pad => ?_⟩
  have hlen := tensorBytes_length cw h
  rw [tensorBytes_eq] at hlen
  have l13 : tensorMagic.length = 13 := by decide
  have hsz : tensorSaveSize lb ob wgt cw t = 15 + (if wgt then 1 else 0) + ob + ob + lb * (t.order * t.m) + weightSize wgt cw t.m := by
    unfold tensorSaveSize
    rw [l13, Nat.mul_assoc, Nat.mul_comm t.m]
    omega
  rw [hsz] at hlen
  have hom : 0 < t.order * t.m := Nat.mul_pos ho hm
  have hlm : 0 < lb * (t.order * t.m) := Nat.mul_pos hlb.1 hom
  rw [← tensorPartsM_eq, hlen]
  generalize hN : 15 + (if wgt then 1 else 0) + ob + ob + lb * (t.order * t.m) + weightSize wgt cw t.m = N at *
  have hflat : ((tensorPartsM lb ob wgt cw t).take 6).flatten =
      tensorMagic ++ encLE 1 lb ++ encLE 1 ob ++ (if wgt then encLE 1 cw.size else []) ++ encLE ob t.order ++ encLE ob t.m := by
    simp [tensorPartsM]
  generalize (tensorPartsM lb ob wgt cw t).take 6 = l at *
  have hfl : l.flatten.length = 15 + (if wgt then 1 else 0) + ob + ob := by
    rw [hflat]; simp only [List.length_append, encLE_length, wsize_length, l13]
  have hNpos : 0 < N := by omega
  have e1 : decLE (fld (Mapping.mem ⟨stage N l, pad⟩) (15 + if wgt then 1 else 0) ob) = t.order :=
    stage_field hNpos (by omega) (pre := tensorMagic ++ encLE 1 lb ++ encLE 1 ob ++ (if wgt then encLE 1 cw.size else []))
      (by rw [hflat]; simp only [List.append_assoc]; rfl) (by simp only [List.length_append, encLE_length, wsize_length, l13]) h.order
  have e2 : decLE (fld (Mapping.mem ⟨stage N l, pad⟩) (15 + (if wgt then 1 else 0) + ob) ob) = t.m :=
    stage_field hNpos (by omega) (pre := tensorMagic ++ encLE 1 lb ++ encLE 1 ob ++ (if wgt then encLE 1 cw.size else []) ++ encLE ob t.order) (post := [])
      (by rw [hflat]; simp only [List.append_assoc, List.append_nil]) (by simp only [List.length_append, encLE_length, wsize_length, l13]) h.m
  have hzero : ∀ i, i + 1 < t.order * t.m →
      (tensorIn lb ob wgt cw (Mapping.mem ⟨stage N l, pad⟩)).c[i]? = some 0 := by
    intro i hi
    simp only [tensorIn, e1, e2, inOrd_small h.all, decArr]
    rw [List.getElem?_map, List.getElem?_range (by omega), Option.map_some]
    have hb := Nat.mul_le_mul_left lb (Nat.le_of_lt_succ (Nat.lt_succ_of_lt hi))
    have hb2 : lb * (i + 1) < lb * (t.order * t.m) := Nat.mul_lt_mul_of_pos_left hi hlb.1
    have hsub : ((fld (Mapping.mem ⟨stage N l, pad⟩) (15 + (if wgt then 1 else 0) + ob + ob) (lb * t.order * t.m)).drop (i * lb)).take lb =
        fld (Mapping.mem ⟨stage N l, pad⟩) (15 + (if wgt then 1 else 0) + ob + ob + i * lb) lb := by
      rw [fld, fld, List.drop_take, List.drop_drop, List.take_take]
      congr 1
      have : lb * (i + 1) = i * lb + lb := by rw [Nat.mul_add, Nat.mul_one, Nat.mul_comm]
      rw [Nat.mul_assoc]
      omega
    have hi' : lb * (i + 1) = i * lb + lb := by rw [Nat.mul_add, Nat.mul_one, Nat.mul_comm]
    rw [hsub, stage_blank (by omega) (by omega), decLE_zeros]
  obtain ⟨a, ha, ea⟩ := size_byte hlb.2
  obtain ⟨b, hb, eb⟩ := size_byte hob
  obtain ⟨d, hd, ed⟩ := size_byte hcw
  have hshape : stage N l = tensorMagic ++ a :: b :: ((if wgt then [d] else []) ++ encLE ob t.order ++ encLE ob t.m ++ (blank N).drop l.flatten.length) :=
    header_shape (by rw [hflat, ea, eb, ed]; simp)
  have hmem : (Mapping.mem ⟨stage N l, pad⟩).length = N + pad := by
    rw [Mapping.mem_length]; show (stage N l).length + pad = _; rw [stage_length hNpos (by omega)]
  refine R.All.mono (P := fun r => r = tensorIn lb ob wgt cw (Mapping.mem ⟨stage N l, pad⟩)) ?_ (fun r hr => ?_)
  · have hmg : HasAt ⟨stage N l, pad⟩ 0 tensorMagic := hasAt_zero hshape (by simp)
    obtain ⟨f1, f2⟩ := hdr_bytes (bs := (Mapping.mk (stage N l) pad).bytes) hshape
    rw [l13] at f1 f2
    have hw : (if wgt then (rdLE ⟨stage N l, pad⟩ 1 15 >>= fun (ws, p) => sizeCheck ws cw.size >>= fun _ => .ok p) else .ok 15) =
        .ok (15 + if wgt then 1 else 0) := by
      cases wgt with
      | false => rfl
      | true =>
        have e : (Mapping.mk (stage N l) pad).bytes[15]? = some d := by
          show (stage N l)[15]? = _
          rw [hshape, List.getElem?_append_right (by rw [l13]; omega), l13]; rfl
        rw [if_pos rfl, rdByte e, ok_bind, hd]
        simp [sizeCheck]
    unfold readBinTensor
    refine R.All.step (rdStr_good hmg) ?_
    rw [l13]
    refine R.All.step (rdByte (by rw [Nat.zero_add]; exact f1)) (R.All.step (rdByte (by rw [Nat.zero_add]; exact f2)) ?_)
    refine R.All.step (a := ()) (if_neg (fun h => h ha)) (R.All.step (a := ()) (if_neg (fun h => h hb)) ?_)
    simp only [Nat.zero_add, Nat.reduceAdd]
    refine R.All.step hw ?_
    refine R.All.step (rdLE_slice (by omega)) (R.All.step (rdLE_slice (by omega)) ?_)
    dsimp only
    simp only [tensorIn, e1, e2]
    rw [inOrd_small h.all]
    have hlm' : lb * t.order * t.m = lb * (t.order * t.m) := Nat.mul_assoc ..
    refine R.All.same (readArr_slice' hT' hlm' (by omega) decLE) ?_
    refine R.All.same (readWeights_slice hT' (by omega)) ?_
    exact R.All.pure rfl
  · rw [hr]
    exact ⟨e2, e1, by rw [tensorIn, decArr_length, e1, e2, inOrd_small h.all], hzero⟩

/-- These for concrete objects: saved over a file with the contents `old`. -/
example := C89_coo_silent_violated { T := 4, lb := 4, ob := 8, wk := wSint 32, cw := codecInt 4 (by decide), stor := .pointer } (by decide) (by decide)
  (by decide) 3 (str "old") binCoo binCoo_fits (by decide)
example := C89_csr_silent_violated binParams (by decide) (by decide) (by decide) 3 (str "old") binCsr binCsr_fits (by decide)
example := C89_tensor_silent_violated 3 5 4 8 (by decide) (by decide) (by decide) true (codecNat 8 (by decide)) (by decide) (str "old") binTensor
  binTensor_fits (by decide) (by decide)
/-- The sources of this COO are not all zero: what is loaded is not what was saved. -/
example : binCoo.x ≠ List.replicate binCoo.m 0 := by decide

/-- C89: a new file without any contents yet, of any save or `write`, is loaded without an error as an edge list without entries if its name
is neither that of a Matrix Market file nor of a `.graph` file, and the type is found out automatically. -/
theorem C89_blank_violated (P : Params W) (hT' : 0 < P.T) (old : List Byte) (n : Nat) (hn : 0 < n) :
    (openO old n).seen (blank n) ∧ ∀ cfg fn pad, 0 < pad → ¬ str ".mtx" <:+ fn → ¬ str ".graph" <:+ fn →
      ∀ out, (readCoo P cfg ⟨blank n, pad⟩ fn 0 .auto).Out out → ∃ r, out = .ok r ∧ r.m = 0 ∧ r.x = [] ∧ r.y = [] := by
  refine ⟨.inr ⟨hn, .inr rfl⟩, fun cfg fn pad hpad h1 h2 out hout => ?_⟩
  have hng : ¬ HasAt ⟨blank n, pad⟩ 0 (str "PIGO") := by
    rintro ⟨⟨t, ht⟩, _⟩
    rw [List.drop_zero] at ht
    have h80 : (80 : Byte) ∈ blank n := by
      have : (blank n) = str "PIGO" ++ t := ht.symm
      rw [this]
      exact List.mem_append_left _ (by decide)
    unfold blank at h80
    rcases List.mem_append.mp h80 with h | h
    · exact absurd (List.mem_replicate.mp h).2 (by decide)
    · exact absurd (List.mem_singleton.mp h) (by decide)
  have hty : usedType ⟨blank n, pad⟩ fn 0 .auto = .ok .edgeList := by
    unfold usedType
    rw [if_pos rfl, C45_by_name _ _ _ hng, if_neg h1, if_neg h2]
  have hall : (readCoo P cfg ⟨blank n, pad⟩ fn 0 .auto).All (fun r => r = cooOf (8 * P.lb) cfg P.wk.wgt []) := by
    unfold readCoo
    refine R.All.step hty ?_
    rw [if_pos (by simp)]
    unfold readCooFmt
    rw [if_neg (by simp), if_pos rfl]
    refine R.All.bind (P := fun r => r.1 = cooOf (8 * P.lb) cfg P.wk.wgt []) (R.All.bind (P := fun r => r = cooOf (8 * P.lb) cfg P.wk.wgt []) ?_ (fun r hr => R.All.pure hr))
      (fun r hr => R.All.pure hr)
    intro o ho
    refine ⟨_, readEl_no_digits (μ := ⟨blank n, pad⟩) (e := (blank n).length) ⟨?_, Nat.le_refl _⟩ ?_ (blank_no_digits n) _ (8 * P.ob) _ _ hT' o ?_, rfl⟩
    · simp
    · show (blank n).length < (blank n).length + pad
      omega
    · have : readerAt ⟨blank n, pad⟩ 0 = rd (blank n).length (blank n) := by simp [readerAt, rd]
      rw [← this]; exact ho
  obtain ⟨r, h, rfl⟩ := hall out hout
  exact ⟨_, h, rfl, rfl, rfl⟩

/-! ### DiGraph -/

theorem le_zero (k : Nat) : le k 0 = List.replicate k 0 := by
  apply List.ext_getElem
  · simp [le]
  · intro i h1 h2
    simp [le]

theorem le_top {k : Nat} (hk : 0 < k) : le k (256 ^ (k - 1)) = blank k := by
  apply List.ext_getElem
  · simp [le, blank]; omega
  · intro i h1 h2
    have hi : i < k := by simpa [le] using h1
    simp only [le, List.getElem_map, List.getElem_range, blank]
    by_cases h : i < k - 1
    · rw [List.getElem_append_left (by simpa using h), List.getElem_replicate]
      have : 256 ^ (k - 1) = 256 ^ i * (256 * 256 ^ (k - 1 - i - 1)) := by
        rw [← Nat.pow_succ', ← Nat.pow_add]; congr 1; omega
      rw [this, Nat.mul_div_cancel_left _ (Nat.pow_pos (by decide)), Nat.mul_mod_right]
      rfl
    · have : i = k - 1 := by omega
      subst this
      rw [List.getElem_append_right (by simp)]
      simp [Nat.div_self (Nat.pow_pos (by decide : 0 < 256))]

/-- What unwritten endpoints look like. -/
def unwritten (lb m : Nat) : List Nat := List.replicate (m - 1) 0 ++ [256 ^ (lb - 1)]

theorem unwritten_bytes {lb m : Nat} (hlb : 0 < lb) (hm : 0 < m) : (unwritten lb m).flatMap (le lb) = blank (lb * m) := by
  obtain ⟨m, rfl⟩ : ∃ m', m = m' + 1 := ⟨m - 1, by omega⟩
  have : ∀ k, (List.replicate k 0).flatMap (le lb) = List.replicate (lb * k) 0 := by
    intro k
    induction k with
    | zero => rfl
    | succ k ih => rw [List.replicate_succ, List.flatMap_cons, ih, le_zero, List.replicate_append_replicate]; congr 1; rw [Nat.mul_succ]; omega
  rw [unwritten, List.flatMap_append, this]
  simp only [List.flatMap_cons, List.flatMap_nil, List.append_nil, le_top hlb]
  rw [blank, ← List.append_assoc, List.replicate_append_replicate, blank, Nat.add_sub_cancel, Nat.mul_succ]
  congr 2; omega

theorem load_digraphFile (P : Params W) (hT' : 0 < P.T) (hlb : P.lb < 256) (hob : P.ob < 256) (g : DiGraph W)
    (hi : FitsCsr P.lb P.ob P.wk.wgt P.cw g.inG) (ho : FitsCsr P.lb P.ob P.wk.wgt P.cw g.outG) (fn : List Byte) (pad : Nat) :
    (readDiGraphBin P ⟨digraphFile P.lb P.ob P.wk.wgt P.cw g, pad⟩ fn 0).All (fun r => r = g) := by
  intro o ho'
  have h := C39_digraph_roundtrip P 1 (by decide) hT' hlb hob g hi ho fn pad
  obtain ⟨o1, ha⟩ : (saveDiGraph 1 P.lb P.ob P.wk.wgt P.cw g).Any := by
    have hcsr : ∀ (c : Csr W) f, (saveCsrTo 1 P.lb P.ob P.wk.wgt P.cw c f).Any := fun c f => by
      rw [← saveCsrToO_run]; exact saveCsrToO_any ..
    exact R.Any.bind (R.Any.lift _) (fun _ => R.Any.bind (R.Any.lift _) (fun _ => R.Any.bind (hcsr ..) (fun _ =>
      R.Any.bind (hcsr ..) (fun _ => R.Any.pure _))))
  obtain ⟨bs, rfl, hb⟩ := ((C89_contents [] 1 P.lb P.ob (by decide) P.wk.wgt P.cw).2.2.1 g hi ho).2.1 o1 (by rw [saveDiGraphO_run]; exact ha)
  subst hb
  exact h o ⟨_, ha, ho'⟩

/-- C89, DiGraph: an unweighted DiGraph file whose save is interrupted before the endpoints of the out-edges are written is loaded
without an error: the in-edges are those saved, the endpoints of the out-edges are not. -/
theorem C89_digraph_silent_violated (P : Params W) (hw : P.wk.wgt = false) (hT' : 0 < P.T) (hlb : 0 < P.lb ∧ P.lb < 256) (hob : P.ob < 256) (T : Nat)
    (hT : 0 < T) (old : List Byte) (g : DiGraph W) (hi : FitsCsr P.lb P.ob P.wk.wgt P.cw g.inG) (ho : FitsCsr P.lb P.ob P.wk.wgt P.cw g.outG)
    (hm : 0 < g.outG.m) :
    ∃ s, (saveDiGraphO old T P.lb P.ob P.wk.wgt P.cw g).seen s ∧ ∀ fn pad,
      (readDiGraphBin P ⟨s, pad⟩ fn 0).All (fun r => r = ⟨g.inG, { g.outG with endpoints := unwritten P.lb g.outG.m }⟩) := by
  have hfit : FitsCsr P.lb P.ob P.wk.wgt P.cw { g.outG with endpoints := unwritten P.lb g.outG.m } := by
    refine { ho with endpoints := ⟨?_, ?_⟩ }
    · simp [unwritten]; omega
    · intro v hv
      simp only [unwritten, List.mem_append, List.mem_replicate, List.mem_singleton] at hv
      rcases hv with ⟨_, rfl⟩ | rfl
      · exact Nat.pow_pos (by decide)
      · exact Nat.pow_lt_pow_right (by decide) (by omega)
  refine ⟨digraphFile P.lb P.ob P.wk.wgt P.cw ⟨g.inG, { g.outG with endpoints := unwritten P.lb g.outG.m }⟩, ?_, fun fn pad => ?_⟩
  · have hj := (C89_every_prefix old T P.lb P.ob hT P.wk.wgt P.cw).2.2.1 g hi ho
    rw [hw] at hj ⊢
    generalize hA : str "PIGO-DiGraph-v1" ++ csrFile P.lb P.ob false P.cw g.inG ++ (str "PIGO-CSR-v2" ++ le 1 P.lb ++ le 1 P.ob ++ le P.lb g.outG.n ++
      le P.ob g.outG.m ++ le P.lb g.outG.nrows ++ le P.lb g.outG.ncols ++ g.outG.offsets.flatMap (le P.ob)) = A
    have e1 : digraphFile P.lb P.ob false P.cw g = A ++ g.outG.endpoints.flatMap (le P.lb) := by
      rw [← hA]; simp [digraphFile, csrFile]
    have e2 : digraphFile P.lb P.ob false P.cw ⟨g.inG, { g.outG with endpoints := unwritten P.lb g.outG.m }⟩ = A ++ blank (P.lb * g.outG.m) := by
      rw [← hA, ← unwritten_bytes hlb.1 hm]; simp [digraphFile, csrFile]
    have hl : (g.outG.endpoints.flatMap (le P.lb)).length = P.lb * g.outG.m := by
      have := rawLE_length (k := P.lb) (l := g.outG.endpoints)
      rw [ho.endpoints.1] at this
      rw [← this, rawArr, encLE_fun]
    have hp : 0 < P.lb * g.outG.m := Nat.mul_pos hlb.1 hm
    have := hj A.length (by rw [e1, List.length_append]; omega)
    rw [e1, List.take_left' rfl, List.length_append, hl] at this
    rw [e2, show blank (P.lb * g.outG.m) = (blank (A.length + P.lb * g.outG.m)).drop A.length from ?_]
    · exact this
    · rw [blank, blank, List.drop_append_of_le_length (by simp; omega), List.drop_replicate]
      congr 2; omega
  · exact load_digraphFile P hT' hlb.2 hob ⟨g.inG, { g.outG with endpoints := unwritten P.lb g.outG.m }⟩ hi hfit fn pad

private theorem bare_fits : FitsCsr 4 8 false (codecNat 1 (by decide)) { binCsr with weights := [] } := by
  refine ⟨by decide, by decide, ⟨by decide, ?_⟩, by decide, by decide, by decide, by decide, by decide⟩
  intro v hv
  simp at hv

example := C89_digraph_silent_violated { T := 4, lb := 4, ob := 8, wk := { wUint 8 with wgt := false }, cw := codecNat 1 (by decide), stor := .pointer } rfl (by decide) (by decide)
  (by decide) 3 (by decide) (str "old") ⟨{ binCsr with weights := [] }, { binCsr with weights := [] }⟩ bare_fits bare_fits (by decide)

/-! ## the text writers -/

/-- C89: at every moment of `COO::write` the file has its old contents, or is empty, or has its final size and each of its bytes is that of the
text, or still that of a new file, or a zero; the first two moments, and the one at which no byte of the text is written, are possible. -/
theorem C89_coo_write (old : List Byte) (T : Nat) (hT : 0 < T) (wt : WText W) (txt : W → List Byte) (ok : W → Prop)
    (hp : Printer wt txt ok) (c : Coo W) (es : List (Nat × Nat × W)) (h : Holds c wt.wgt es) (hok : ∀ e ∈ es, ok e.2.2) (hne : es ≠ []) :
    (writeCooO old T wt c).run = writeCoo T wt c ∧
    (∀ s, (writeCooO old T wt c).seen s → s = old ∨ s = [] ∨ TornText (es.flatMap (fun e => Spec.cooLine wt.wgt txt e)) s) ∧
    (writeCooO old T wt c).seen [] ∧ (writeCooO old T wt c).seen (blank (es.flatMap (fun e => Spec.cooLine wt.wgt txt e)).length) := by
  have key : ∀ its, OmpStatic c.m T its → (∀ e ∈ its.flatten, LineOk (cooLineSize wt c) (cooLineActs wt c) (lineAt (Spec.cooLine wt.wgt txt) es e) e) ∧
      its.flatten.flatMap (lineAt (Spec.cooLine wt.wgt txt) es) = es.flatMap (fun e => Spec.cooLine wt.wgt txt e) := by
    intro its hits
    refine ⟨fun e he => ?_, ?_⟩
    · have hlt : e < es.length := by
        rw [hits.chunks, h.m, List.mem_range] at he
        exact he
      have hg := List.getElem?_eq_getElem hlt
      rw [lineAt_some hg]
      exact cooLine_ok h (fun hg p hpm => hp.write (hok p hpm) hg) hg
    · rw [hits.chunks, h.m]
      exact flatMap_range_get es _ _ (fun i a ha => lineAt_some ha)
  have hne' : es.flatMap (fun e => Spec.cooLine wt.wgt txt e) ≠ [] := by
    intro hn
    obtain ⟨e, l, rfl⟩ := List.exists_cons_of_ne_nil hne
    exact cooLine_ne _ _ _ (List.flatMap_eq_nil_iff.mp hn e (List.mem_cons_self ..))
  refine ⟨rfl, ?_, ?_⟩
  · rintro s (hs | ⟨its, hits, hs⟩)
    · exact hs.elim
    have hits' : OmpStatic c.m T its := by
      obtain ⟨_, hi, he⟩ := hits
      cases he
      exact hi
    obtain ⟨k1, k2⟩ := key its hits'
    have := (twoPassO_states (old := old) k1 (by rw [k2]; exact hne')).1 s hs
    rwa [k2] at this
  · have hits := OmpStatic.one c.m T hT
    obtain ⟨k1, k2⟩ := key _ hits
    obtain ⟨_, h1, h2⟩ := twoPassO_states (old := old) k1 (by rw [k2]; exact hne')
    rw [k2] at h2
    exact ⟨.inr ⟨_, ⟨_, hits, rfl⟩, h1⟩, .inr ⟨_, ⟨_, hits, rfl⟩, h2⟩⟩

/-- C89: the same for `Tensor::write`. -/
theorem C89_tensor_write (old : List Byte) (T ob : Nat) (hT : 0 < T) (wt : WText W) (txt : W → List Byte) (ok : W → Prop)
    (hp : Printer wt txt ok) (t : Tensor W) (es : List (List Nat × W)) (h : HoldsT t wt.wgt es) (ho : 0 < t.order)
    (hfit : t.order * t.m < 256 ^ ob) (hok : ∀ e ∈ es, ok e.2) (hne : es ≠ []) :
    (writeTensorO old T ob wt t).run = writeTensor T ob wt t ∧
    (∀ s, (writeTensorO old T ob wt t).seen s → s = old ∨ s = [] ∨ TornText (es.flatMap (fun e => Spec.tensorLine wt.wgt txt e)) s) ∧
    (writeTensorO old T ob wt t).seen [] ∧
    (writeTensorO old T ob wt t).seen (blank (es.flatMap (fun e => Spec.tensorLine wt.wgt txt e)).length) := by
  have key : ∀ its, OmpStatic t.m T its →
      (∀ e ∈ its.flatten, LineOk (tensorLineSize ob wt t) (tensorLineActs ob wt t) (lineAt (fun e => Spec.tensorLine wt.wgt txt e) es e) e) ∧
      its.flatten.flatMap (lineAt (fun e => Spec.tensorLine wt.wgt txt e) es) = es.flatMap (fun e => Spec.tensorLine wt.wgt txt e) := by
    intro its hits
    refine ⟨fun e he => ?_, ?_⟩
    · have hlt : e < es.length := by
        rw [hits.chunks, h.m, List.mem_range] at he
        exact he
      have hg := List.getElem?_eq_getElem hlt
      rw [lineAt_some hg]
      exact tensorLine_ok h ho hfit (fun hg p hpm => hp.write (hok p hpm) hg) hg
    · rw [hits.chunks, h.m]
      exact flatMap_range_get es _ _ (fun i a ha => lineAt_some ha)
  have hne' : es.flatMap (fun e => Spec.tensorLine wt.wgt txt e) ≠ [] := by
    intro hn
    obtain ⟨e, l, rfl⟩ := List.exists_cons_of_ne_nil hne
    have := List.flatMap_eq_nil_iff.mp hn e (List.mem_cons_self ..)
    simp [Spec.tensorLine, str] at this
  refine ⟨rfl, ?_, ?_⟩
  · rintro s (hs | ⟨its, hits, hs⟩)
    · exact hs.elim
    have hits' : OmpStatic t.m T its := by
      obtain ⟨_, hi, he⟩ := hits
      cases he
      exact hi
    obtain ⟨k1, k2⟩ := key its hits'
    have := (twoPassO_states (old := old) k1 (by rw [k2]; exact hne')).1 s hs
    rwa [k2] at this
  · have hits := OmpStatic.one t.m T hT
    obtain ⟨k1, k2⟩ := key _ hits
    obtain ⟨_, h1, h2⟩ := twoPassO_states (old := old) k1 (by rw [k2]; exact hne')
    rw [k2] at h2
    exact ⟨.inr ⟨_, ⟨_, hits, rfl⟩, h1⟩, .inr ⟨_, ⟨_, hits, rfl⟩, h2⟩⟩

/-- C89: an interrupted `write` of an unweighted COO leaves the old file, an empty file, or a file that is loaded as an edge list without a
fault: the result does not depend on the schedule, its labels fit and its dimensions are right for it. -/
theorem C89_text_load (old : List Byte) (T : Nat) (hT : 0 < T) (c : Coo Unit) (es : List (Nat × Nat × Unit)) (h : Holds c false es) (hne : es ≠ [])
    (s : List Byte) (hs : (writeCooO old T wtNone c).seen s) (page : Nat) (hpage : 0 < page) (hd : ¬ page ∣ s.length) (lw ow T' : Nat) (hT' : 0 < T') (cfg : Cfg)
    (hm : s.length < 2 ^ ow) :
    s = old ∨ s = [] ∨
    ∃ r : Coo Unit, (∀ out, LoadEdgeList (mapFile page s) lw ow cfg wNone T' out → out = .ok r) ∧ Sound lw r ∧ r.m ≤ s.length := by
  rcases (C89_coo_write old T hT wtNone (fun _ => []) (fun _ => True) .none c es h (fun _ _ => trivial) hne).2.1 s hs with hs | hs | hs
  · exact .inl hs
  · exact .inr (.inl hs)
  · right; right
    refine C82_any_text page hpage s hd ?_ lw ow T' hT' cfg hm
    intro b hb
    have hlast : (es.flatMap (fun e => Spec.cooLine wtNone.wgt (fun _ : Unit => []) e)).getLast? = some 10 := by
      obtain ⟨l, e, rfl⟩ := List.eq_nil_or_concat es |>.resolve_left hne
      simp [List.flatMap_append, Spec.cooLine, str_nl]
    rw [List.getLast?_eq_getElem?] at hb hlast
    rw [← hs.1] at hlast
    rcases hs.2 (s.length - 1) with h1 | h1 | h1
    · rw [h1, hlast] at hb
      cases hb; decide
    · rw [hb] at h1
      exact blank_no_digits _ b (List.mem_of_getElem? h1.symm)
    · rw [hb] at h1
      cases h1; decide

example := C89_coo_write (str "old") 2 (by decide) (wtInt 8) _ _ (.sint 8) wrCoo [(0, 5, -7), (12, 0, 0), (7, 100, 31)] ⟨rfl, rfl, rfl, fun _ => rfl⟩
  (by decide) (by decide)

end Pigo
