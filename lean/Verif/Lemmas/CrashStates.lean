import Verif.Lemmas.Crash

/-! # The contents of interrupted saves -/

namespace Pigo

open Spec (blank stage Between Interrupted)

variable {W : Type}

/-- Some part after the parts `done` is being written. -/
def Mid (n : Nat) (done parts : List (List Byte)) (s : List Byte) : Prop :=
  ∃ k < parts.length, Between (stage n (done ++ parts.take k)) (stage n (done ++ parts.take (k + 1))) s

theorem Mid.at {n : Nat} {done parts : List (List Byte)} {d d' s : List (List Byte)} {x : List Byte} (k : Nat) (hk : k < parts.length)
    (h1 : d = done ++ parts.take k) (h2 : d' = done ++ parts.take (k + 1)) (h : Between (stage n d) (stage n d') x) : Mid n done parts x := by
  subst h1 h2
  exact ⟨k, hk, h⟩

/-- The parts of a COO file in the terms of the model. -/
def cooPartsM (lb ob : Nat) (wgt : Bool) (cw : Codec W) (c : Coo W) : List (List Byte) :=
  [cooMagic, encLE 1 lb, encLE 1 ob, encLE lb c.nrows, encLE lb c.ncols, encLE lb c.n, encLE ob c.m, rawArr (encLE lb) c.x, rawArr (encLE lb) c.y,
   if wgt then rawArr cw.enc c.w else []]

theorem cooPartsM_eq (lb ob : Nat) (wgt : Bool) (cw : Codec W) (c : Coo W) : cooPartsM lb ob wgt cw c = Spec.cooParts lb ob wgt cw c := by
  simp only [cooPartsM, Spec.cooParts, encLE_fun, rawArr]
  rfl

theorem cooParts_flatten (lb ob : Nat) (wgt : Bool) (cw : Codec W) (c : Coo W) : (Spec.cooParts lb ob wgt cw c).flatten = Spec.cooFile lb ob wgt cw c := by
  simp [Spec.cooParts, Spec.cooFile, List.append_assoc]

/-- The parts of a CSR file in the terms of the model. -/
def csrPartsM (lb ob : Nat) (wgt : Bool) (cw : Codec W) (c : Csr W) : List (List Byte) :=
  [csrMagic, encLE 1 lb, encLE 1 ob, encLE lb c.n, encLE ob c.m, encLE lb c.nrows, encLE lb c.ncols, rawArr (encLE ob) c.offsets,
   rawArr (encLE lb) c.endpoints, if wgt then rawArr cw.enc c.weights else []]

theorem csrPartsM_eq (lb ob : Nat) (wgt : Bool) (cw : Codec W) (c : Csr W) : csrPartsM lb ob wgt cw c = Spec.csrParts lb ob wgt cw c := by
  simp only [csrPartsM, Spec.csrParts, encLE_fun, rawArr]
  rfl

theorem csrParts_flatten (lb ob : Nat) (wgt : Bool) (cw : Codec W) (c : Csr W) : (Spec.csrParts lb ob wgt cw c).flatten = Spec.csrFile lb ob wgt cw c := by
  simp [Spec.csrParts, Spec.csrFile, List.append_assoc]

theorem digraphParts_flatten (lb ob : Nat) (wgt : Bool) (cw : Codec W) (g : DiGraph W) :
    (Spec.digraphParts lb ob wgt cw g).flatten = Spec.digraphFile lb ob wgt cw g := by
  simp [Spec.digraphParts, Spec.digraphFile, csrParts_flatten]

/-- The parts of a Tensor file in the terms of the model. -/
def tensorPartsM (lb ob : Nat) (wgt : Bool) (cw : Codec W) (t : Tensor W) : List (List Byte) :=
  [tensorMagic, encLE 1 lb, encLE 1 ob, if wgt then encLE 1 cw.size else [], encLE ob t.order, encLE ob t.m, rawArr (encLE lb) t.c,
   if wgt then rawArr cw.enc t.w else []]

theorem tensorPartsM_eq (lb ob : Nat) (wgt : Bool) (cw : Codec W) (t : Tensor W) : tensorPartsM lb ob wgt cw t = Spec.tensorParts lb ob wgt cw t := by
  simp only [tensorPartsM, Spec.tensorParts, encLE_fun, rawArr]
  rfl

theorem tensorParts_flatten (lb ob : Nat) (wgt : Bool) (cw : Codec W) (t : Tensor W) :
    (Spec.tensorParts lb ob wgt cw t).flatten = Spec.tensorFile lb ob wgt cw t := by
  simp [Spec.tensorParts, Spec.tensorFile, List.append_assoc]

theorem interrupted_open {old : List Byte} {parts : List (List Byte)} (h : 0 < parts.length) {s : List Byte}
    (hs : s = old ∨ s = [] ∨ s = stage parts.flatten.length []) : Interrupted old parts s := by
  rcases hs with rfl | rfl | rfl
  · exact .untouched
  · exact .emptied
  · exact .during 0 h _ (between_refl_left _ _)

theorem interrupted_mid {old : List Byte} {parts : List (List Byte)} {s : List Byte} (h : Mid parts.flatten.length [] parts s) :
    Interrupted old parts s := by
  obtain ⟨k, hk, h⟩ := h
  exact .during k hk s (by simpa using h)

theorem Done.flatten {f : WFile} {parts : List (List Byte)} (h : Done f parts.flatten.length parts) : f.bytes = parts.flatten := by
  rw [h.bytes, stage, List.drop_of_length_le (by rw [blank_length h.pos]; omega), List.append_nil]

theorem saveCooO_seg {old : List Byte} {T lb ob : Nat} (hT : 0 < T) {wgt : Bool} (cw : Codec W) {c : Coo W} (h : Spec.FitsCoo lb ob wgt cw c) :
    (saveCooO old T lb ob wgt cw c).Seg (fun bs => bs = Spec.cooFile lb ob wgt cw c) (Interrupted old (Spec.cooParts lb ob wgt cw c)) := by
  have hl := cooBytes_length cw h
  have hn : cooSaveSize lb ob wgt cw c = (cooPartsM lb ob wgt cw c).flatten.length := by
    rw [← hl, cooBytes_eq, cooPartsM_eq, cooParts_flatten]
  simp only [cooBytes, List.length_append, encLE_length, rawLE_length, h.x.1, h.y.1, weights_length cw h.w.1] at hl
  have hpos : 0 < cooSaveSize lb ob wgt cw c := by unfold cooSaveSize; omega
  rw [← cooParts_flatten, ← cooPartsM_eq]
  have hmid : ∀ k, k < (cooPartsM lb ob wgt cw c).length → ∀ {d d' : List (List Byte)}, d = (cooPartsM lb ob wgt cw c).take k →
      d' = (cooPartsM lb ob wgt cw c).take (k + 1) → ∀ s, Between (stage (cooSaveSize lb ob wgt cw c) d) (stage (cooSaveSize lb ob wgt cw c) d') s →
      Interrupted old (cooPartsM lb ob wgt cw c) s := by
    rintro k hk _ _ rfl rfl s hs
    rw [hn] at hs
    exact .during k hk s hs
  unfold saveCooO
  refine Obs.Seg.bind ((openO_seg hpos).mono (fun s hs => interrupted_open (by simp [cooPartsM]) (by rw [← hn]; exact hs))) (fun f hf => ?_)
  refine Obs.Seg.bind ((wBytesO_seg hf _ (by simp only [List.flatten_append, List.flatten_singleton, List.flatten_nil, List.length_append, encLE_length, List.length_nil]; omega)).mono (hmid 0 (by simp [cooPartsM]) rfl rfl)) (fun f hf => ?_)
  refine Obs.Seg.bind ((wBytesO_seg hf _ (by simp only [List.flatten_append, List.flatten_singleton, List.flatten_nil, List.length_append, encLE_length, List.length_nil]; omega)).mono (hmid 1 (by simp [cooPartsM]) rfl rfl)) (fun f hf => ?_)
  refine Obs.Seg.bind ((wBytesO_seg hf _ (by simp only [List.flatten_append, List.flatten_singleton, List.flatten_nil, List.length_append, encLE_length, List.length_nil]; omega)).mono (hmid 2 (by simp [cooPartsM]) rfl rfl)) (fun f hf => ?_)
  refine Obs.Seg.bind ((wBytesO_seg hf _ (by simp only [List.flatten_append, List.flatten_singleton, List.flatten_nil, List.length_append, encLE_length, List.length_nil]; omega)).mono (hmid 3 (by simp [cooPartsM]) rfl rfl)) (fun f hf => ?_)
  refine Obs.Seg.bind ((wBytesO_seg hf _ (by simp only [List.flatten_append, List.flatten_singleton, List.flatten_nil, List.length_append, encLE_length, List.length_nil]; omega)).mono (hmid 4 (by simp [cooPartsM]) rfl rfl)) (fun f hf => ?_)
  refine Obs.Seg.bind ((wBytesO_seg hf _ (by simp only [List.flatten_append, List.flatten_singleton, List.flatten_nil, List.length_append, encLE_length, List.length_nil]; omega)).mono (hmid 5 (by simp [cooPartsM]) rfl rfl)) (fun f hf => ?_)
  refine Obs.Seg.bind ((wBytesO_seg hf _ (by simp only [List.flatten_append, List.flatten_singleton, List.flatten_nil, List.length_append, encLE_length, List.length_nil]; omega)).mono (hmid 6 (by simp [cooPartsM]) rfl rfl)) (fun f hf => ?_)
  refine Obs.Seg.bind ((parWriteO_seg hf hT _ (by rw [rawLE_length, h.x.1]) (by simp only [List.flatten_append, List.flatten_singleton, List.flatten_nil, List.length_append, encLE_length, List.length_nil]; omega)).mono (hmid 7 (by simp [cooPartsM]) rfl rfl)) (fun f hf => ?_)
  refine Obs.Seg.bind ((parWriteO_seg hf hT _ (by rw [rawLE_length, h.y.1]) (by simp only [List.flatten_append, List.flatten_singleton, List.flatten_nil, List.length_append, encLE_length, rawLE_length, h.x.1, List.length_nil]; omega)).mono (hmid 8 (by simp [cooPartsM]) rfl rfl)) (fun f hf => ?_)
  refine Obs.Seg.bind ((saveWeightsO_seg hf hT cw h.w.1 (by simp only [List.flatten_append, List.flatten_singleton, List.flatten_nil, List.length_append, encLE_length, rawLE_length, h.x.1, h.y.1, List.length_nil]; omega)).mono (hmid 9 (by simp [cooPartsM]) rfl rfl)) (fun f hf => ?_)
  refine Obs.Seg.pure ?_
  rw [hn] at hf
  exact hf.flatten

theorem saveCsrToO_seg {T lb ob : Nat} (hT : 0 < T) {wgt : Bool} (cw : Codec W) {c : Csr W} (h : Spec.FitsCsr lb ob wgt cw c)
    {f : WFile} {n : Nat} {done : List (List Byte)} (hf : Done f n done) (hs : done.flatten.length + csrSaveSize lb ob wgt cw c ≤ n) :
    (saveCsrToO T lb ob wgt cw c f).Seg (fun f => Done f n (done ++ csrPartsM lb ob wgt cw c)) (Mid n done (csrPartsM lb ob wgt cw c)) := by
  have hl := csrBytes_length cw h
  simp only [csrBytes, List.length_append, encLE_length, rawLE_length, h.offsets.1, h.endpoints.1, weights_length cw h.weights.1] at hl
  have hmid : ∀ k, k < (csrPartsM lb ob wgt cw c).length → ∀ {d d' : List (List Byte)}, d = done ++ (csrPartsM lb ob wgt cw c).take k →
      d' = done ++ (csrPartsM lb ob wgt cw c).take (k + 1) → ∀ s, Between (stage n d) (stage n d') s → Mid n done (csrPartsM lb ob wgt cw c) s := by
    rintro k hk _ _ rfl rfl s hs
    exact ⟨k, hk, hs⟩
  have hsucc := succL_eq h.room
  unfold saveCsrToO
  refine Obs.Seg.bind ((wBytesO_seg hf _ (by omega)).mono (hmid 0 (by simp [csrPartsM]) (by simp [csrPartsM]) (by simp [csrPartsM]))) (fun f hf => ?_)
  refine Obs.Seg.bind ((wBytesO_seg hf _ (by simp only [List.flatten_append, List.flatten_singleton, List.flatten_nil, List.length_append, encLE_length, List.length_nil]; omega)).mono (hmid 1 (by simp [csrPartsM]) (by simp [csrPartsM]) (by simp [csrPartsM]))) (fun f hf => ?_)
  refine Obs.Seg.bind ((wBytesO_seg hf _ (by simp only [List.flatten_append, List.flatten_singleton, List.flatten_nil, List.length_append, encLE_length, List.length_nil]; omega)).mono (hmid 2 (by simp [csrPartsM]) (by simp [csrPartsM]) (by simp [csrPartsM]))) (fun f hf => ?_)
  refine Obs.Seg.bind ((wBytesO_seg hf _ (by simp only [List.flatten_append, List.flatten_singleton, List.flatten_nil, List.length_append, encLE_length, List.length_nil]; omega)).mono (hmid 3 (by simp [csrPartsM]) (by simp [csrPartsM]) (by simp [csrPartsM]))) (fun f hf => ?_)
  refine Obs.Seg.bind ((wBytesO_seg hf _ (by simp only [List.flatten_append, List.flatten_singleton, List.flatten_nil, List.length_append, encLE_length, List.length_nil]; omega)).mono (hmid 4 (by simp [csrPartsM]) (by simp [csrPartsM]) (by simp [csrPartsM]))) (fun f hf => ?_)
  refine Obs.Seg.bind ((wBytesO_seg hf _ (by simp only [List.flatten_append, List.flatten_singleton, List.flatten_nil, List.length_append, encLE_length, List.length_nil]; omega)).mono (hmid 5 (by simp [csrPartsM]) (by simp [csrPartsM]) (by simp [csrPartsM]))) (fun f hf => ?_)
  refine Obs.Seg.bind ((wBytesO_seg hf _ (by simp only [List.flatten_append, List.flatten_singleton, List.flatten_nil, List.length_append, encLE_length, List.length_nil]; omega)).mono (hmid 6 (by simp [csrPartsM]) (by simp [csrPartsM]) (by simp [csrPartsM]))) (fun f hf => ?_)
  refine Obs.Seg.bind ((parWriteO_seg hf hT _ (by rw [rawLE_length, h.offsets.1, hsucc]) (by rw [hsucc]; simp only [List.flatten_append, List.flatten_singleton, List.flatten_nil, List.length_append, encLE_length, List.length_nil]; omega)).mono (hmid 7 (by simp [csrPartsM]) (by simp [csrPartsM]) (by simp [csrPartsM]))) (fun f hf => ?_)
  refine Obs.Seg.bind ((parWriteO_seg hf hT _ (by rw [rawLE_length, h.endpoints.1]) (by simp only [List.flatten_append, List.flatten_singleton, List.flatten_nil, List.length_append, encLE_length, rawLE_length, h.offsets.1, List.length_nil]; omega)).mono (hmid 8 (by simp [csrPartsM]) (by simp [csrPartsM]) (by simp [csrPartsM]))) (fun f hf => ?_)
  have := (saveWeightsO_seg hf hT cw h.weights.1 (by simp only [List.flatten_append, List.flatten_singleton, List.flatten_nil, List.length_append, encLE_length, rawLE_length, h.offsets.1, h.endpoints.1, List.length_nil]; omega)).mono (hmid 9 (by simp [csrPartsM]) (by simp [csrPartsM]) (by simp [csrPartsM]))
  refine ⟨this.1.mono (fun f hf => ?_), this.2⟩
  simpa [csrPartsM] using hf

theorem csrPartsM_flatten {lb ob : Nat} {wgt : Bool} (cw : Codec W) {c : Csr W} (h : Spec.FitsCsr lb ob wgt cw c) :
    (csrPartsM lb ob wgt cw c).flatten.length = csrSaveSize lb ob wgt cw c := by
  rw [csrPartsM_eq, csrParts_flatten, ← csrBytes_eq, csrBytes_length cw h]

theorem saveCsrO_seg {old : List Byte} {T lb ob : Nat} (hT : 0 < T) {wgt : Bool} (cw : Codec W) {c : Csr W} (h : Spec.FitsCsr lb ob wgt cw c) :
    (saveCsrO old T lb ob wgt cw c).Seg (fun bs => bs = Spec.csrFile lb ob wgt cw c) (Interrupted old (Spec.csrParts lb ob wgt cw c)) := by
  have hn := csrPartsM_flatten cw h
  rw [← csrParts_flatten, ← csrPartsM_eq]
  unfold saveCsrO
  refine Obs.Seg.bind ((openO_seg (csrSaveSize_pos ..)).mono (fun s hs => interrupted_open (by simp [csrPartsM]) (by rw [hn]; exact hs))) (fun f hf => ?_)
  refine Obs.Seg.bind ((saveCsrToO_seg hT cw h hf (by simp)).mono (fun s hs => interrupted_mid (by rw [hn]; exact hs))) (fun f hf => ?_)
  refine Obs.Seg.pure ?_
  rw [← hn] at hf
  exact hf.flatten

theorem saveDiGraphO_seg {old : List Byte} {T lb ob : Nat} (hT : 0 < T) {wgt : Bool} (cw : Codec W) {g : DiGraph W}
    (hi : Spec.FitsCsr lb ob wgt cw g.inG) (ho : Spec.FitsCsr lb ob wgt cw g.outG) :
    (saveDiGraphO old T lb ob wgt cw g).Seg (fun bs => bs = Spec.digraphFile lb ob wgt cw g) (Interrupted old (Spec.digraphParts lb ob wgt cw g)) := by
  have hni := csrPartsM_flatten cw hi
  have hno := csrPartsM_flatten cw ho
  have hp : Spec.digraphParts lb ob wgt cw g = digraphMagic :: (csrPartsM lb ob wgt cw g.inG ++ csrPartsM lb ob wgt cw g.outG) := by
    rw [csrPartsM_eq, csrPartsM_eq]; rfl
  rw [← digraphParts_flatten, hp]
  have hn : digraphMagic.length + csrSaveSize lb ob wgt cw g.inG + csrSaveSize lb ob wgt cw g.outG =
      (digraphMagic :: (csrPartsM lb ob wgt cw g.inG ++ csrPartsM lb ob wgt cw g.outG)).flatten.length := by
    rw [List.flatten_cons, List.length_append, List.flatten_append, List.length_append, hni, hno]; omega
  have hl : ∀ c : Csr W, (csrPartsM lb ob wgt cw c).length = 10 := fun c => rfl
  unfold saveDiGraphO
  refine Obs.Seg.bind ((openO_seg (by have := csrSaveSize_pos lb ob wgt cw g.inG; omega)).mono (fun s hs => interrupted_open (by simp) (by rw [← hn]; exact hs))) (fun f hf => ?_)
  refine Obs.Seg.bind ((wBytesO_seg hf digraphMagic (by simp; omega)).mono (fun s hs => ?_)) (fun f hf => ?_)
  · exact .during 0 (by simp) s (by rw [← hn]; exact hs)
  refine Obs.Seg.bind ((saveCsrToO_seg hT cw hi hf (by simp)).mono ?_) (fun f hf => ?_)
  · rintro s ⟨k, hk, hs⟩
    refine .during (k + 1) (by rw [hl] at hk; simp [hl]; omega) s ?_
    rw [← hn]
    rw [hl] at hk
    rw [List.take_succ_cons, List.take_succ_cons, List.take_append_of_le_length (by rw [hl]; omega), List.take_append_of_le_length (by rw [hl]; omega)]
    exact hs
  refine Obs.Seg.bind ((saveCsrToO_seg hT cw ho hf (by rw [List.flatten_append, List.length_append, hni]; simp)).mono ?_) (fun f hf => ?_)
  · rintro s ⟨k, hk, hs⟩
    refine .during (k + 11) (by rw [hl] at hk; simp [hl]; omega) s ?_
    rw [← hn]
    rw [hl] at hk
    rw [show k + 11 = (10 + k) + 1 by omega, show 10 + k + 1 + 1 = (10 + (k + 1)) + 1 by omega, List.take_succ_cons, List.take_succ_cons,
      List.take_append, List.take_append, hl, List.take_of_length_le (l := csrPartsM lb ob wgt cw g.inG) (i := 10 + k) (by rw [hl]; omega),
      List.take_of_length_le (l := csrPartsM lb ob wgt cw g.inG) (i := 10 + (k + 1)) (by rw [hl]; omega),
      show 10 + k - 10 = k by omega, show 10 + (k + 1) - 10 = k + 1 by omega]
    exact hs
  refine Obs.Seg.pure ?_
  rw [hn] at hf
  exact Done.flatten (by simpa using hf)

theorem saveTensorO_seg {old : List Byte} {T lb ob : Nat} (hT : 0 < T) {wgt : Bool} (cw : Codec W) {t : Tensor W} (h : Spec.FitsTensor lb ob wgt cw t) :
    (saveTensorO old T lb ob wgt cw t).Seg (fun bs => bs = Spec.tensorFile lb ob wgt cw t) (Interrupted old (Spec.tensorParts lb ob wgt cw t)) := by
  have hl := tensorBytes_length cw h
  have hn : tensorSaveSize lb ob wgt cw t = (tensorPartsM lb ob wgt cw t).flatten.length := by
    rw [← hl, tensorBytes_eq, tensorPartsM_eq, tensorParts_flatten]
  have hc : (rawArr (encLE lb) t.c).length = lb * t.order * t.m := by rw [rawLE_length, h.c.1, Nat.mul_assoc]
  simp only [tensorBytes, List.length_append, encLE_length, hc, weights_length cw h.w.1, wsize_length] at hl
  have hpos : 0 < tensorSaveSize lb ob wgt cw t := by unfold tensorSaveSize; omega
  rw [← tensorParts_flatten, ← tensorPartsM_eq]
  have hmid : ∀ k, k < (tensorPartsM lb ob wgt cw t).length → ∀ {d d' : List (List Byte)}, d = (tensorPartsM lb ob wgt cw t).take k →
      d' = (tensorPartsM lb ob wgt cw t).take (k + 1) → ∀ s, Between (stage (tensorSaveSize lb ob wgt cw t) d) (stage (tensorSaveSize lb ob wgt cw t) d') s →
      Interrupted old (tensorPartsM lb ob wgt cw t) s := by
    rintro k hk _ _ rfl rfl s hs
    rw [hn] at hs
    exact .during k hk s hs
  unfold saveTensorO
  refine Obs.Seg.bind ((openO_seg hpos).mono (fun s hs => interrupted_open (by simp [tensorPartsM]) (by rw [← hn]; exact hs))) (fun f hf => ?_)
  refine Obs.Seg.bind ((wBytesO_seg hf _ (by simp only [List.flatten_append, List.flatten_singleton, List.flatten_nil, List.length_append, encLE_length, List.length_nil]; omega)).mono (hmid 0 (by simp [tensorPartsM]) rfl rfl)) (fun f hf => ?_)
  refine Obs.Seg.bind ((wBytesO_seg hf _ (by simp only [List.flatten_append, List.flatten_singleton, List.flatten_nil, List.length_append, encLE_length, List.length_nil]; omega)).mono (hmid 1 (by simp [tensorPartsM]) rfl rfl)) (fun f hf => ?_)
  refine Obs.Seg.bind ((wBytesO_seg hf _ (by simp only [List.flatten_append, List.flatten_singleton, List.flatten_nil, List.length_append, encLE_length, List.length_nil]; omega)).mono (hmid 2 (by simp [tensorPartsM]) rfl rfl)) (fun f hf => ?_)
  refine Obs.Seg.bind ((wBytesO_seg hf _ (by simp only [List.flatten_append, List.flatten_singleton, List.flatten_nil, List.length_append, encLE_length, wsize_length, List.length_nil]; omega)).mono (hmid 3 (by simp [tensorPartsM]) rfl rfl)) (fun f hf => ?_)
  refine Obs.Seg.bind ((wBytesO_seg hf _ (by simp only [List.flatten_append, List.flatten_singleton, List.flatten_nil, List.length_append, encLE_length, wsize_length, List.length_nil]; omega)).mono (hmid 4 (by simp [tensorPartsM]) rfl rfl)) (fun f hf => ?_)
  refine Obs.Seg.bind ((wBytesO_seg hf _ (by simp only [List.flatten_append, List.flatten_singleton, List.flatten_nil, List.length_append, encLE_length, wsize_length, List.length_nil]; omega)).mono (hmid 5 (by simp [tensorPartsM]) rfl rfl)) (fun f hf => ?_)
  refine Obs.Seg.bind ((parWriteO_seg hf hT _ hc (by simp only [List.flatten_append, List.flatten_singleton, List.flatten_nil, List.length_append, encLE_length, wsize_length, List.length_nil]; omega)).mono (hmid 6 (by simp [tensorPartsM]) rfl rfl)) (fun f hf => ?_)
  refine Obs.Seg.bind ((saveWeightsO_seg hf hT cw h.w.1 (by simp only [List.flatten_append, List.flatten_singleton, List.flatten_nil, List.length_append, encLE_length, wsize_length, hc, List.length_nil]; omega)).mono (hmid 7 (by simp [tensorPartsM]) rfl rfl)) (fun f hf => ?_)
  refine Obs.Seg.pure ?_
  rw [hn] at hf
  exact hf.flatten

end Pigo
