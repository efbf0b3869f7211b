import Verif.Lemmas.Binary

/-! # What the binary writers produce and the readers make of it -/

namespace Pigo

variable {W : Type}

theorem encLE_fun (k : Nat) : encLE k = Spec.le k := funext (encLE_eq k)

theorem rawArr_eq (k : Nat) (l : List Nat) : rawArr (encLE k) l = l.flatMap (Spec.le k) := by rw [rawArr, encLE_fun]

theorem rawLE_length (k : Nat) (l : List Nat) : (rawArr (encLE k) l).length = k * l.length := rawArr_length (encLE_length k) l

theorem dec_rawLE {k : Nat} {l : List Nat} (h : ∀ v ∈ l, v < 256 ^ k) : decArr k decLE l.length (rawArr (encLE k) l) = l :=
  decArr_rawArr (encLE_length k) l (fun a ha => decLE_encLE (h a ha))

theorem weights_length {wgt : Bool} (cw : Codec W) {w : List W} {m : Nat} (hw : w.length = if wgt then m else 0) :
    (if wgt then rawArr cw.enc w else []).length = weightSize wgt cw m := by
  cases wgt with
  | false => rfl
  | true => simp only [if_pos] at *; rw [rawArr_length cw.len, hw]; rfl

/-! ## COO -/

/-- The layout in the model's terms. -/
def cooBytes (lb ob : Nat) (wgt : Bool) (cw : Codec W) (c : Coo W) : List Byte :=
  cooMagic ++ encLE 1 lb ++ encLE 1 ob ++ encLE lb c.nrows ++ encLE lb c.ncols ++ encLE lb c.n ++ encLE ob c.m ++
  rawArr (encLE lb) c.x ++ rawArr (encLE lb) c.y ++ (if wgt then rawArr cw.enc c.w else [])

theorem cooBytes_eq (lb ob : Nat) (wgt : Bool) (cw : Codec W) (c : Coo W) : cooBytes lb ob wgt cw c = Spec.cooFile lb ob wgt cw c := by
  unfold cooBytes Spec.cooFile cooMagic
  simp only [encLE_eq, rawArr_eq]
  rfl

theorem cooBytes_length {lb ob : Nat} {wgt : Bool} (cw : Codec W) {c : Coo W} (h : Spec.FitsCoo lb ob wgt cw c) :
    (cooBytes lb ob wgt cw c).length = cooSaveSize lb ob wgt cw c := by
  simp only [cooBytes, List.length_append, encLE_length, rawLE_length, h.x.1, h.y.1, weights_length cw h.w.1, cooSaveSize]
  omega

theorem saveCoo_all {T lb ob : Nat} (hT : 0 < T) {wgt : Bool} (cw : Codec W) {c : Coo W} (h : Spec.FitsCoo lb ob wgt cw c) :
    (saveCoo T lb ob wgt cw c).All (fun bs => bs = cooBytes lb ob wgt cw c) := by
  have hl := cooBytes_length cw h
  simp only [cooBytes, List.length_append, encLE_length, rawLE_length, h.x.1, h.y.1, weights_length cw h.w.1] at hl
  have hpos : 0 < cooSaveSize lb ob wgt cw c := by unfold cooSaveSize; omega
  unfold saveCoo
  refine R.All.bind (openW_all hpos) (fun f hf => ?_)
  refine R.All.bind (wBytes_all hf _ (by simp only [List.length_append, encLE_length, List.length_nil]; omega)) (fun f hf => ?_)
  refine R.All.bind (wBytes_all hf _ (by simp only [List.length_append, encLE_length, List.length_nil]; omega)) (fun f hf => ?_)
  refine R.All.bind (wBytes_all hf _ (by simp only [List.length_append, encLE_length, List.length_nil]; omega)) (fun f hf => ?_)
  refine R.All.bind (wBytes_all hf _ (by simp only [List.length_append, encLE_length, List.length_nil]; omega)) (fun f hf => ?_)
  refine R.All.bind (wBytes_all hf _ (by simp only [List.length_append, encLE_length, List.length_nil]; omega)) (fun f hf => ?_)
  refine R.All.bind (wBytes_all hf _ (by simp only [List.length_append, encLE_length, List.length_nil]; omega)) (fun f hf => ?_)
  refine R.All.bind (wBytes_all hf _ (by simp only [List.length_append, encLE_length, List.length_nil]; omega)) (fun f hf => ?_)
  refine R.All.bind (parWrite_all hf hT _ (by rw [rawLE_length, h.x.1]) (by simp; omega)) (fun f hf => ?_)
  refine R.All.bind (parWrite_all hf hT _ (by rw [rawLE_length, h.y.1]) (by simp [rawLE_length, h.x.1]; omega)) (fun f hf => ?_)
  refine R.All.bind (saveWeights_all hf hT cw h.w.1 (by simp [rawLE_length, h.x.1, h.y.1]; omega)) (fun f hf => ?_)
  refine R.All.pure ?_
  rw [List.nil_append, show cooSaveSize lb ob wgt cw c = (cooBytes lb ob wgt cw c).length from (cooBytes_length cw h).symm] at hf
  exact hf.done

theorem readBinCoo_at {T lb ob : Nat} (hT : 0 < T) (hlb : lb < 256) (hob : ob < 256) {wgt : Bool} (cw : Codec W) {c : Coo W}
    (h : Spec.FitsCoo lb ob wgt cw c) {μ : Mapping} {p : Nat} {l : List Byte} (hr : Rest μ p (cooBytes lb ob wgt cw c ++ l))
    (hb : p + cooMagic.length < μ.bytes.length) : (readBinCoo T lb ob wgt cw μ p).All (fun r => r = (c, p + (cooBytes lb ob wgt cw c).length)) := by
  rw [cooBytes_length cw h]
  simp only [cooBytes, List.append_assoc] at hr
  unfold readBinCoo
  refine R.All.step (rdStr_at hr hb) ?_
  have hr := hr.next
  refine R.All.step (rdLE_at hr (encLE_length ..)) ?_
  have hr := hr.next; rw [encLE_length] at hr
  refine R.All.step (rdLE_at hr (encLE_length ..)) ?_
  have hr := hr.next; rw [encLE_length] at hr
  rw [decLE_encLE (k := 1) (n := lb) (by simpa using hlb), decLE_encLE (k := 1) (n := ob) (by simpa using hob)]
  refine R.All.step (a := ()) (if_neg (fun h => h rfl)) ?_
  refine R.All.step (a := ()) (if_neg (fun h => h rfl)) ?_
  refine R.All.step (rdLE_at hr (encLE_length ..)) ?_
  have hr := hr.next; rw [encLE_length] at hr
  refine R.All.step (rdLE_at hr (encLE_length ..)) ?_
  have hr := hr.next; rw [encLE_length] at hr
  refine R.All.step (rdLE_at hr (encLE_length ..)) ?_
  have hr := hr.next; rw [encLE_length] at hr
  refine R.All.step (rdLE_at hr (encLE_length ..)) ?_
  have hr := hr.next; rw [encLE_length] at hr
  simp only [decLE_encLE h.nrows, decLE_encLE h.ncols, decLE_encLE h.n, decLE_encLE h.m]
  have hx : (rawArr (encLE lb) c.x).length = lb * c.m := by rw [rawLE_length, h.x.1]
  have hy : (rawArr (encLE lb) c.y).length = lb * c.m := by rw [rawLE_length, h.y.1]
  refine R.All.same (readArr_at hr hT hx rfl decLE) ?_
  have hr := hr.next; rw [hx] at hr
  refine R.All.same (readArr_at hr hT hy rfl decLE) ?_
  have hr := hr.next; rw [hy] at hr
  refine R.All.same (readWeights_at hr hT h.w.1 h.w.2) ?_
  refine R.All.pure ?_
  have e1 := dec_rawLE h.x.2
  have e2 := dec_rawLE h.y.2
  rw [h.x.1] at e1
  rw [h.y.1] at e2
  rw [e1, e2]
  refine Prod.ext rfl ?_
  show _ + _ = _ + _
  unfold cooSaveSize
  omega

/-! ## CSR -/

/-- The layout in the model's terms. -/
def csrBytes (lb ob : Nat) (wgt : Bool) (cw : Codec W) (c : Csr W) : List Byte :=
  csrMagic ++ encLE 1 lb ++ encLE 1 ob ++ encLE lb c.n ++ encLE ob c.m ++ encLE lb c.nrows ++ encLE lb c.ncols ++
  rawArr (encLE ob) c.offsets ++ rawArr (encLE lb) c.endpoints ++ (if wgt then rawArr cw.enc c.weights else [])

theorem csrBytes_eq (lb ob : Nat) (wgt : Bool) (cw : Codec W) (c : Csr W) : csrBytes lb ob wgt cw c = Spec.csrFile lb ob wgt cw c := by
  unfold csrBytes Spec.csrFile csrMagic
  simp only [encLE_eq, rawArr_eq]
  rfl

theorem succL_eq {lb n : Nat} (h : lb < 4 ∨ n + 1 < 256 ^ lb) : succL lb n = n + 1 := by
  unfold succL
  split
  · rfl
  · rename_i hl
    exact Nat.mod_eq_of_lt (h.resolve_left hl)

theorem csrBytes_length {lb ob : Nat} {wgt : Bool} (cw : Codec W) {c : Csr W} (h : Spec.FitsCsr lb ob wgt cw c) :
    (csrBytes lb ob wgt cw c).length = csrSaveSize lb ob wgt cw c := by
  simp only [csrBytes, List.length_append, encLE_length, rawLE_length, h.offsets.1, h.endpoints.1, weights_length cw h.weights.1,
    csrSaveSize, succL_eq h.room]
  omega

theorem saveCsrTo_all {T lb ob : Nat} (hT : 0 < T) {wgt : Bool} (cw : Codec W) {c : Csr W} (h : Spec.FitsCsr lb ob wgt cw c)
    {f : WFile} {size : Nat} {P : List Byte} (hf : Wrote f size (P ++ [])) (hs : P.length + csrSaveSize lb ob wgt cw c ≤ size) :
    (saveCsrTo T lb ob wgt cw c f).All (fun f => Wrote f size (P ++ csrBytes lb ob wgt cw c)) := by
  rw [← csrBytes_length cw h] at hs
  simp only [csrBytes, List.length_append, encLE_length, rawLE_length, h.offsets.1, h.endpoints.1, weights_length cw h.weights.1] at hs
  unfold saveCsrTo
  refine R.All.bind (wBytes_all hf _ (by simp only [List.length_append, encLE_length, List.length_nil]; omega)) (fun f hf => ?_)
  refine R.All.bind (wBytes_all hf _ (by simp only [List.length_append, encLE_length, List.length_nil]; omega)) (fun f hf => ?_)
  refine R.All.bind (wBytes_all hf _ (by simp only [List.length_append, encLE_length, List.length_nil]; omega)) (fun f hf => ?_)
  refine R.All.bind (wBytes_all hf _ (by simp only [List.length_append, encLE_length, List.length_nil]; omega)) (fun f hf => ?_)
  refine R.All.bind (wBytes_all hf _ (by simp only [List.length_append, encLE_length, List.length_nil]; omega)) (fun f hf => ?_)
  refine R.All.bind (wBytes_all hf _ (by simp only [List.length_append, encLE_length, List.length_nil]; omega)) (fun f hf => ?_)
  refine R.All.bind (wBytes_all hf _ (by simp only [List.length_append, encLE_length, List.length_nil]; omega)) (fun f hf => ?_)
  refine R.All.bind (parWrite_all hf hT _ (by rw [rawLE_length, h.offsets.1, succL_eq h.room]) (by rw [succL_eq h.room]; simp; omega)) (fun f hf => ?_)
  refine R.All.bind (parWrite_all hf hT _ (by rw [rawLE_length, h.endpoints.1]) (by simp [rawLE_length, h.offsets.1]; omega)) (fun f hf => ?_)
  refine (saveWeights_all hf hT cw h.weights.1 (by simp [rawLE_length, h.offsets.1, h.endpoints.1]; omega)).mono (fun f hf => ?_)
  simpa only [csrBytes, List.append_assoc, List.nil_append] using hf

theorem csrSaveSize_pos (lb ob : Nat) (wgt : Bool) (cw : Codec W) (c : Csr W) : 0 < csrSaveSize lb ob wgt cw c := by
  unfold csrSaveSize; omega

theorem saveCsr_all {T lb ob : Nat} (hT : 0 < T) {wgt : Bool} (cw : Codec W) {c : Csr W} (h : Spec.FitsCsr lb ob wgt cw c) :
    (saveCsr T lb ob wgt cw c).All (fun bs => bs = csrBytes lb ob wgt cw c) := by
  unfold saveCsr
  refine R.All.bind (openW_all (csrSaveSize_pos ..)) (fun f hf => ?_)
  refine R.All.bind (saveCsrTo_all (P := []) hT cw h hf (by simp)) (fun f hf => ?_)
  refine R.All.pure ?_
  rw [List.nil_append, ← csrBytes_length cw h] at hf
  exact hf.done

theorem readBinCsr_at {T lb ob : Nat} (hT : 0 < T) (hlb : lb < 256) (hob : ob < 256) {wgt : Bool} (cw : Codec W) {c : Csr W}
    (h : Spec.FitsCsr lb ob wgt cw c) {μ : Mapping} {p : Nat} {l : List Byte} (hr : Rest μ p (csrBytes lb ob wgt cw c ++ l))
    (hb : p + csrMagic.length < μ.bytes.length) :
    (readBinCsr T lb ob wgt cw μ p).All (fun r => r = (c, p + (csrBytes lb ob wgt cw c).length)) := by
  rw [csrBytes_length cw h]
  simp only [csrBytes, List.append_assoc] at hr
  unfold readBinCsr
  refine R.All.step (rdStr_at hr hb) ?_
  have hr := hr.next
  refine R.All.step (rdLE_at hr (encLE_length ..)) ?_
  have hr := hr.next; rw [encLE_length] at hr
  refine R.All.step (rdLE_at hr (encLE_length ..)) ?_
  have hr := hr.next; rw [encLE_length] at hr
  rw [decLE_encLE (k := 1) (n := lb) (by simpa using hlb), decLE_encLE (k := 1) (n := ob) (by simpa using hob)]
  refine R.All.step (a := ()) (if_neg (fun h => h rfl)) ?_
  refine R.All.step (a := ()) (if_neg (fun h => h rfl)) ?_
  refine R.All.step (rdLE_at hr (encLE_length ..)) ?_
  have hr := hr.next; rw [encLE_length] at hr
  refine R.All.step (rdLE_at hr (encLE_length ..)) ?_
  have hr := hr.next; rw [encLE_length] at hr
  refine R.All.step (rdLE_at hr (encLE_length ..)) ?_
  have hr := hr.next; rw [encLE_length] at hr
  refine R.All.step (rdLE_at hr (encLE_length ..)) ?_
  have hr := hr.next; rw [encLE_length] at hr
  have hn : c.n < 256 ^ lb := h.n
  simp only [decLE_encLE h.nrows, decLE_encLE h.ncols, decLE_encLE hn, decLE_encLE h.m]
  have hx : (rawArr (encLE ob) c.offsets).length = ob * succL lb c.n := by rw [rawLE_length, h.offsets.1, succL_eq h.room]
  have hy : (rawArr (encLE lb) c.endpoints).length = lb * c.m := by rw [rawLE_length, h.endpoints.1]
  refine R.All.same (readArr_at hr hT hx rfl decLE) ?_
  have hr := hr.next; rw [hx] at hr
  refine R.All.same (readArr_at hr hT hy rfl decLE) ?_
  have hr := hr.next; rw [hy] at hr
  refine R.All.same (readWeights_at hr hT h.weights.1 h.weights.2) ?_
  refine R.All.pure ?_
  have e1 := dec_rawLE h.offsets.2
  have e2 := dec_rawLE h.endpoints.2
  rw [h.offsets.1, ← succL_eq h.room] at e1
  rw [h.endpoints.1] at e2
  rw [e1, e2]
  refine Prod.ext rfl ?_
  show _ + _ = _ + _
  unfold csrSaveSize
  omega

/-! ## Tensor -/

/-- The layout in the model's terms. -/
def tensorBytes (lb ob : Nat) (wgt : Bool) (cw : Codec W) (t : Tensor W) : List Byte :=
  tensorMagic ++ encLE 1 lb ++ encLE 1 ob ++ (if wgt then encLE 1 cw.size else []) ++ encLE ob t.order ++ encLE ob t.m ++
  rawArr (encLE lb) t.c ++ (if wgt then rawArr cw.enc t.w else [])

theorem tensorBytes_eq (lb ob : Nat) (wgt : Bool) (cw : Codec W) (t : Tensor W) : tensorBytes lb ob wgt cw t = Spec.tensorFile lb ob wgt cw t := by
  unfold tensorBytes Spec.tensorFile tensorMagic
  simp only [encLE_eq, rawArr_eq]
  rfl

theorem wsize_length (wgt : Bool) (cw : Codec W) : (if wgt then encLE 1 cw.size else []).length = if wgt then 1 else 0 := by
  cases wgt <;> simp

theorem tensorBytes_length {lb ob : Nat} {wgt : Bool} (cw : Codec W) {t : Tensor W} (h : Spec.FitsTensor lb ob wgt cw t) :
    (tensorBytes lb ob wgt cw t).length = tensorSaveSize lb ob wgt cw t := by
  simp only [tensorBytes, List.length_append, encLE_length, rawLE_length, h.c.1, weights_length cw h.w.1, tensorSaveSize, wsize_length]
  rw [show lb * (t.order * t.m) = lb * t.m * t.order by rw [Nat.mul_assoc, Nat.mul_comm t.order]]
  omega

theorem saveTensor_all {T lb ob : Nat} (hT : 0 < T) {wgt : Bool} (cw : Codec W) {t : Tensor W} (h : Spec.FitsTensor lb ob wgt cw t) :
    (saveTensor T lb ob wgt cw t).All (fun bs => bs = tensorBytes lb ob wgt cw t) := by
  have hl := tensorBytes_length cw h
  simp only [tensorBytes, List.length_append, encLE_length, rawLE_length, h.c.1, weights_length cw h.w.1, wsize_length] at hl
  have hpos : 0 < tensorSaveSize lb ob wgt cw t := by unfold tensorSaveSize; omega
  have hc : (rawArr (encLE lb) t.c).length = lb * t.order * t.m := by rw [rawLE_length, h.c.1, Nat.mul_assoc]
  rw [← Nat.mul_assoc] at hl
  unfold saveTensor
  refine R.All.bind (openW_all hpos) (fun f hf => ?_)
  refine R.All.bind (wBytes_all hf _ (by simp only [List.length_append, encLE_length, List.length_nil]; omega)) (fun f hf => ?_)
  refine R.All.bind (wBytes_all hf _ (by simp only [List.length_append, encLE_length, List.length_nil]; omega)) (fun f hf => ?_)
  refine R.All.bind (wBytes_all hf _ (by simp only [List.length_append, encLE_length, List.length_nil]; omega)) (fun f hf => ?_)
  refine R.All.bind (wBytes_all hf _ (by simp only [List.length_append, encLE_length, wsize_length, List.length_nil]; omega)) (fun f hf => ?_)
  refine R.All.bind (wBytes_all hf _ (by simp only [List.length_append, encLE_length, wsize_length, List.length_nil]; omega)) (fun f hf => ?_)
  refine R.All.bind (wBytes_all hf _ (by simp only [List.length_append, encLE_length, wsize_length, List.length_nil]; omega)) (fun f hf => ?_)
  refine R.All.bind (parWrite_all hf hT _ hc (by simp only [List.length_append, encLE_length, wsize_length, List.length_nil]; omega)) (fun f hf => ?_)
  refine R.All.bind (saveWeights_all hf hT cw h.w.1 (by simp only [List.length_append, encLE_length, wsize_length, List.length_nil, hc]; omega)) (fun f hf => ?_)
  refine R.All.pure ?_
  rw [List.nil_append, show tensorSaveSize lb ob wgt cw t = (tensorBytes lb ob wgt cw t).length from (tensorBytes_length cw h).symm] at hf
  exact hf.done

theorem readBinTensor_at {T lb ob : Nat} (hT : 0 < T) (hlb : lb < 256) (hob : ob < 256) {wgt : Bool} (cw : Codec W) (hcw : cw.size < 256)
    {t : Tensor W} (h : Spec.FitsTensor lb ob wgt cw t) {μ : Mapping} {p : Nat} {l : List Byte}
    (hr : Rest μ p (tensorBytes lb ob wgt cw t ++ l)) (hb : p + tensorMagic.length < μ.bytes.length) :
    (readBinTensor T lb ob wgt cw μ p).All (fun r => r = t) := by
  simp only [tensorBytes, List.append_assoc] at hr
  unfold readBinTensor
  refine R.All.step (rdStr_at hr hb) ?_
  have hr := hr.next
  refine R.All.step (rdLE_at hr (encLE_length ..)) ?_
  have hr := hr.next; rw [encLE_length] at hr
  refine R.All.step (rdLE_at hr (encLE_length ..)) ?_
  have hr := hr.next; rw [encLE_length] at hr
  rw [decLE_encLE (k := 1) (n := lb) (by simpa using hlb), decLE_encLE (k := 1) (n := ob) (by simpa using hob)]
  refine R.All.step (a := ()) (if_neg (fun h => h rfl)) ?_
  refine R.All.step (a := ()) (if_neg (fun h => h rfl)) ?_
  refine R.All.step (a := p + tensorMagic.length + 1 + 1 + if wgt then 1 else 0) ?_ ?_
  · cases wgt with
    | false => rfl
    | true =>
      simp only [if_pos] at hr ⊢
      rw [rdLE_at hr (encLE_length ..), ok_bind, decLE_encLE (by simpa using hcw)]
      simp [sizeCheck]
  have hr := hr.next; rw [wsize_length] at hr
  refine R.All.step (rdLE_at hr (encLE_length ..)) ?_
  have hr := hr.next; rw [encLE_length] at hr
  refine R.All.step (rdLE_at hr (encLE_length ..)) ?_
  have hr := hr.next; rw [encLE_length] at hr
  simp only [decLE_encLE h.order, decLE_encLE h.m]
  have hx : (rawArr (encLE lb) t.c).length = lb * t.order * t.m := by rw [rawLE_length, h.c.1, Nat.mul_assoc]
  refine R.All.same (readArr_at hr hT hx (by rw [inOrd_small h.all, Nat.mul_assoc]) decLE) ?_
  have hr := hr.next; rw [hx] at hr
  refine R.All.same (readWeights_at hr hT h.w.1 h.w.2) ?_
  refine R.All.pure ?_
  have e1 := dec_rawLE h.c.2
  rw [h.c.1] at e1
  rw [inOrd_small h.all, e1]

end Pigo
