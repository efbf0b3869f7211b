import Verif.Props.Binary

/-!
# Properties of the binary formats: rejected and damaged files, and instances

C42, C43, and cases meeting the hypotheses of C37–C41.
-/

namespace Pigo

variable {W α β : Type}

/-! ## Weight types -/

/-- Unsigned weights of `k` bytes. -/
def codecNat (k : Nat) (hk : 0 < k) : Codec Nat where
  size := k
  enc := encLE k
  dec := decLE
  ok := fun n => n < 256 ^ k
  pos := hk
  len := fun n => encLE_length k n
  inv := fun _ h => decLE_encLE h

/-- Signed weights of `k` bytes, in two's complement. -/
def codecInt (k : Nat) (hk : 0 < k) : Codec Int where
  size := k
  enc := fun i => encLE k (i % (256 ^ k : Nat)).toNat
  dec := fun bs => if 2 * decLE bs < 256 ^ k then (decLE bs : Int) else (decLE bs : Int) - (256 ^ k : Nat)
  ok := fun i => - (256 ^ k : Nat) ≤ 2 * i ∧ 2 * i < (256 ^ k : Nat)
  pos := hk
  len := fun n => encLE_length k _
  inv := by
    intro i h
    generalize he : 256 ^ k = e at *
    have hpos : (0 : Int) < e := by
      have : 0 < 256 ^ k := Nat.pow_pos (by decide)
      rw [he] at this; omega
    have h1 := Int.emod_nonneg i (show (e : Int) ≠ 0 by omega)
    have h2 := Int.emod_lt_of_pos i hpos
    rw [decLE_encLE (by rw [he]; omega)]
    have h3 : (((i % (e : Int)).toNat : Nat) : Int) = i % (e : Int) := Int.toNat_of_nonneg h1
    rcases Int.lt_or_le i 0 with hn | hn
    · have : i % (e : Int) = i + e := by
        rw [← Int.add_emod_right, Int.emod_eq_of_lt (by omega) (by omega)]
      rw [h3, this]
      rw [if_neg (by omega)]
      omega
    · have : i % (e : Int) = i := Int.emod_eq_of_lt hn (by omega)
      rw [h3, this, if_pos (by omega)]

/-! ## Instances of C37–C41 -/

/-- A weighted COO of 3 rows and 4 columns with 32 bit labels, 64 bit ordinals and signed 32 bit weights. -/
def binCoo : Coo Int := { x := [0, 2, 1], y := [3, 0, 1], w := [-7, 2147483647, 0], n := 4, m := 3, nrows := 3, ncols := 4 }

theorem binCoo_fits : Spec.FitsCoo 4 8 true (codecInt 4 (by decide)) binCoo := by
  refine ⟨by decide, by decide, ⟨by decide, ?_⟩, by decide, by decide, by decide, by decide⟩
  intro v hv
  simp only [binCoo, List.mem_cons, List.not_mem_nil, or_false] at hv
  rcases hv with rfl | rfl | rfl <;> (refine ⟨?_, ?_⟩ <;> decide)

/-- A CSR with an empty row, a duplicate and unsigned weights. -/
def binCsr : Csr Nat := { offsets := [0, 2, 2, 3], endpoints := [1, 1, 0], weights := [255, 0, 9], n := 3, m := 3, nrows := 3, ncols := 3 }

theorem binCsr_fits : Spec.FitsCsr 4 8 true (codecNat 1 (by decide)) binCsr := by
  refine ⟨by decide, by decide, ⟨by decide, ?_⟩, by decide, by decide, by decide, by decide, by decide⟩
  intro v hv
  simp only [binCsr, List.mem_cons, List.not_mem_nil, or_false] at hv
  rcases hv with rfl | rfl | rfl <;> (show _ < _; decide)

theorem parWrite_none (T : Nat) (v v' : List Byte) (f : WFile) : parWrite T v 0 f = parWrite T v' 0 f := by
  have h : ∀ (u : List Byte), (fun tid => chunkActs (load u) f.fp 0 T tid) = fun _ => .ok [] := by
    intro u
    funext tid
    have : chunkLen 0 T tid = 0 := by unfold chunkLen; split <;> simp
    simp only [chunkActs, this, List.range'_zero]
    rfl
  have e : ∀ u : List Byte, chunkActs (load u) f.fp 0 T = fun _ => .ok [] := h
  unfold parWrite
  rw [e v, e v']

/-- C38, the bound on `n`: the number of offsets to save is computed in the label type (in `int` for types of less than 4
bytes). With the largest `n` of a label type of 4 bytes or more it is 0: the file does not depend on the offsets, so it
cannot be loaded back. -/
theorem C38_largest_n (T lb ob : Nat) (wgt : Bool) (cw : Codec W) (c : Csr W) (hlb : 4 ≤ lb) (hn : c.n + 1 = 256 ^ lb) (o : List Nat) :
    saveCsr T lb ob wgt cw { c with offsets := o } = saveCsr T lb ob wgt cw c := by
  have hs : succL lb c.n = 0 := by
    unfold succL
    rw [if_neg (by omega), hn, Nat.mod_self]
  unfold saveCsr saveCsrTo csrSaveSize
  simp only [hs, Nat.mul_zero]
  simp only [parWrite_none T (rawArr (encLE ob) o) (rawArr (encLE ob) c.offsets)]

/-- With a label type of one byte the same `n` is saved and loaded: 256 offsets. -/
example : Spec.FitsCsr 1 8 false (codecNat 1 (by decide))
    { offsets := List.replicate 256 0, endpoints := [], weights := [], n := 255, m := 0, nrows := 255, ncols := 255 } := by
  refine ⟨⟨List.length_replicate .., ?_⟩, by simp, by simp, by decide, by decide, by decide, by decide, by decide⟩
  intro v hv
  rw [(List.mem_replicate.mp hv).2]
  decide

/-- A tensor of order 3. -/
def binTensor : Tensor Nat := { c := [0, 1, 2, 3, 4, 5], w := [1, 2], order := 3, m := 2 }

theorem binTensor_fits : Spec.FitsTensor 4 8 true (codecNat 8 (by decide)) binTensor := by
  refine ⟨by decide, ⟨by decide, ?_⟩, by decide, by decide, by decide⟩
  intro v hv
  simp only [binTensor, List.mem_cons, List.not_mem_nil, or_false] at hv
  rcases hv with rfl | rfl <;> (show _ < _; decide)

theorem parWrite_any (T : Nat) (v : List Byte) (n : Nat) (f : WFile) : (parWrite T v n f).Any :=
  R.Any.bind (R.Any.lift _) (fun _ => R.Any.bind (R.Any.par ..) (fun _ => R.Any.pure _))

theorem saveWeights_any (T : Nat) (wgt : Bool) (cw : Codec W) (m : Nat) (w : List W) (f : WFile) : (saveWeights T wgt cw m w f).Any := by
  unfold saveWeights; split
  · exact parWrite_any ..
  · exact R.Any.pure _

/-- Every `save` has executions: the statements about all of them are not empty. -/
theorem C37_saves_run (T lb ob : Nat) (wgt : Bool) (cw : Codec W) (c : Coo W) (r : Csr W) (t : Tensor W) :
    (saveCoo T lb ob wgt cw c).Any ∧ (saveCsr T lb ob wgt cw r).Any ∧ (saveTensor T lb ob wgt cw t).Any := by
  refine ⟨?_, ?_, ?_⟩
  · repeat' first | exact R.Any.pure _ | exact saveWeights_any .. | refine R.Any.bind (R.Any.lift _) (fun _ => ?_) | refine R.Any.bind (parWrite_any ..) (fun _ => ?_) | refine R.Any.bind (saveWeights_any ..) (fun _ => ?_)
  · refine R.Any.bind (R.Any.lift _) (fun _ => R.Any.bind ?_ (fun _ => R.Any.pure _))
    repeat' first | exact R.Any.pure _ | exact saveWeights_any .. | refine R.Any.bind (R.Any.lift _) (fun _ => ?_) | refine R.Any.bind (parWrite_any ..) (fun _ => ?_) | refine R.Any.bind (saveWeights_any ..) (fun _ => ?_)
  · repeat' first | exact R.Any.pure _ | exact saveWeights_any .. | refine R.Any.bind (R.Any.lift _) (fun _ => ?_) | refine R.Any.bind (parWrite_any ..) (fun _ => ?_) | refine R.Any.bind (saveWeights_any ..) (fun _ => ?_)

/-- A concrete set of type parameters: 32 bit labels, 64 bit ordinals, unsigned byte weights, four threads. -/
def binParams : Params Nat where
  T := 4
  lb := 4
  ob := 8
  wk := wUint 8
  cw := codecNat 1 (by decide)
  stor := .pointer

example : 0 < binParams.T ∧ binParams.lb < 256 ∧ binParams.ob < 256 ∧ Spec.FitsCsr binParams.lb binParams.ob binParams.wk.wgt binParams.cw binCsr :=
  ⟨by decide, by decide, by decide, binCsr_fits⟩

/-- The round trips of C37–C40 for these objects: saved with 3 threads and loaded with 4 or 5. -/
example := C37_coo_roundtrip { T := 4, lb := 4, ob := 8, wk := wSint 32, cw := codecInt 4 (by decide), stor := .pointer } 3 (by decide)
  (by decide) (by decide) (by decide) {} binCoo binCoo_fits (str "a.bin") 7 .auto (.inl rfl)
example := C38_csr_roundtrip binParams 3 (by decide) (by decide) (by decide) (by decide) binCsr binCsr_fits (str "a.bin") 7 .auto (.inl rfl)
example := C39_digraph_roundtrip binParams 3 (by decide) (by decide) (by decide) (by decide) ⟨binCsr, binCsr⟩ binCsr_fits binCsr_fits
  (str "a.bin") 7
example := C40_tensor_roundtrip 3 5 4 8 (by decide) (by decide) (by decide) (by decide) true (codecNat 8 (by decide)) (by decide) binTensor
  binTensor_fits 7

/-! ## C42: headers of other files -/

/-- Every execution of `p` ends by throwing `Error`. -/
def R.Throws (p : R α) : Prop := p.Any ∧ ∀ o, p.Out o → o = .error .error

theorem R.Throws.lift {o : M α} (h : o = .error .error) : (R.lift o).Throws := ⟨⟨_, rfl⟩, by rintro o' rfl; exact h⟩

theorem R.Throws.bind_left {p : R α} {k : α → R β} (h : p.Throws) : (p >>= k).Throws := by
  obtain ⟨⟨o, ho⟩, hp⟩ := h
  have he := hp o ho
  subst he
  refine ⟨⟨.error .error, .error .error, ho, rfl⟩, ?_⟩
  rintro o ⟨o', ho', h⟩
  rw [hp o' ho'] at h
  exact h

theorem R.Throws.step {o : M α} {a : α} {k : α → R β} (h : o = .ok a) (hk : (k a).Throws) : (R.lift o >>= k).Throws := by
  subst h
  obtain ⟨⟨o, ho⟩, hp⟩ := hk
  refine ⟨⟨o, .ok a, rfl, ho⟩, ?_⟩
  rintro o' ⟨x, hx, h⟩
  cases hx
  exact hp o' h

theorem rdStr_bad {μ : Mapping} {s : List Byte} {p : Nat} (h : ¬ HasAt μ p s) : rdStr μ s p = .error .error := by
  rw [rdStr, atStr_at, ok_bind, decide_eq_false (show ¬ (_ ∧ _) from h)]
  rfl

theorem rdStr_good {μ : Mapping} {s : List Byte} {p : Nat} (h : HasAt μ p s) : rdStr μ s p = .ok (p + s.length) := by
  rw [rdStr, atStr_at, ok_bind, decide_eq_true (show (_ ∧ _) from h)]
  rfl

/-- C42: a file without the magic of the type (at the start, followed by more) is rejected by each reader. -/
theorem C42_magic (T lb ob : Nat) (wgt : Bool) (cw : Codec W) (P : Params W) (fn : List Byte) (μ : Mapping) (p : Nat) :
    (¬ HasAt μ p (str "PIGO-COO-v1") → (readBinCoo T lb ob wgt cw μ p).Throws) ∧
    (¬ HasAt μ p (str "PIGO-CSR-v2") → (readBinCsr T lb ob wgt cw μ p).Throws) ∧
    (¬ HasAt μ p (str "PIGO-Tensor-2") → (readBinTensor T lb ob wgt cw μ p).Throws) ∧
    (¬ HasAt μ p (str "PIGO-DiGraph-v1") → (readDiGraphBin P μ fn p).Throws) :=
  ⟨fun h => R.Throws.bind_left (R.Throws.lift (rdStr_bad h)), fun h => R.Throws.bind_left (R.Throws.lift (rdStr_bad h)),
    fun h => R.Throws.bind_left (R.Throws.lift (rdStr_bad h)), fun h => R.Throws.bind_left (R.Throws.lift (rdStr_bad h))⟩

theorem rdByte {μ : Mapping} {p : Nat} {b : Byte} (h : μ.bytes[p]? = some b) : rdLE μ 1 p = .ok (b.toNat, p + 1) := by
  have hp := (List.getElem?_eq_some_iff.mp h)
  rw [rdLE, getBytes, μ.get_lt hp.1, ok_bind, getBytes, ok_bind, ok_bind, hp.2]
  rfl

theorem file_byte {s rest : List Byte} (a : Byte) : (s ++ a :: rest)[s.length]? = some a := by simp

theorem hdr_bytes {bs s rest : List Byte} {a b : Byte} (h : bs = s ++ a :: b :: rest) : bs[s.length]? = some a ∧ bs[s.length + 1]? = some b := by
  subst h
  constructor
  · simp
  · rw [List.getElem?_append_right (by omega)]; simp

/-- The checks of the two sizes throw unless both are as expected. -/
theorem checks_bad {a b lb ob : Nat} (h : a ≠ lb ∨ b ≠ ob) (k : R α) :
    (R.lift (sizeCheck a lb) >>= fun _ => R.lift (sizeCheck b ob) >>= fun _ => k).Throws := by
  by_cases hl : a = lb
  · refine R.Throws.step (a := ()) (if_neg (by simpa using hl)) ?_
    refine R.Throws.bind_left (R.Throws.lift (if_pos ?_))
    rcases h with h | h
    · exact absurd hl h
    · exact h
  · exact R.Throws.bind_left (R.Throws.lift (if_pos hl))

theorem hdr_bad {μ : Mapping} {s rest : List Byte} {a b : Byte} (hb : μ.bytes = s ++ a :: b :: rest) {k : Nat × Nat → Nat × Nat → R α}
    (h : (k (a.toNat, s.length + 1) (b.toNat, s.length + 2)).Throws) :
    (R.lift (rdStr μ s 0) >>= fun p => R.lift (rdLE μ 1 p) >>= fun x => R.lift (rdLE μ 1 x.2) >>= fun y => k x y).Throws := by
  obtain ⟨e1, e2⟩ := hdr_bytes hb
  have hm : HasAt μ 0 s := hasAt_zero (t := a :: b :: rest) hb (by simp)
  refine R.Throws.step (rdStr_good hm) (R.Throws.step (rdByte (by rw [Nat.zero_add]; exact e1)) (R.Throws.step (rdByte (by rw [Nat.zero_add]; exact e2)) ?_))
  simpa using h

/-- C42: a file of the right type recording other sizes of the label or ordinal type is rejected. -/
theorem C42_sizes (T lb ob : Nat) (wgt : Bool) (cw : Codec W) (μ : Mapping) (a b : Byte) (rest : List Byte)
    (h : a.toNat ≠ lb ∨ b.toNat ≠ ob) :
    (μ.bytes = str "PIGO-COO-v1" ++ a :: b :: rest → (readBinCoo T lb ob wgt cw μ 0).Throws) ∧
    (μ.bytes = str "PIGO-CSR-v2" ++ a :: b :: rest → (readBinCsr T lb ob wgt cw μ 0).Throws) ∧
    (μ.bytes = str "PIGO-Tensor-2" ++ a :: b :: rest → (readBinTensor T lb ob wgt cw μ 0).Throws) :=
  ⟨fun hb => hdr_bad (s := cooMagic) hb (checks_bad h _), fun hb => hdr_bad (s := csrMagic) hb (checks_bad h _),
    fun hb => hdr_bad (s := tensorMagic) hb (checks_bad h _)⟩

/-- C42: a weighted Tensor file recording another size of the weight type is rejected. -/
theorem C42_weight_size (T lb ob : Nat) (cw : Codec W) (μ : Mapping) (a b w : Byte) (rest : List Byte)
    (hb : μ.bytes = str "PIGO-Tensor-2" ++ a :: b :: w :: rest) (h : w.toNat ≠ cw.size) :
    (readBinTensor T lb ob true cw μ 0).Throws := by
  by_cases hs : a.toNat ≠ lb ∨ b.toNat ≠ ob
  · exact (C42_sizes T lb ob true cw μ a b (w :: rest) hs).2.2 hb
  · simp only [ne_eq, not_or, Decidable.not_not] at hs
    have e3 : μ.bytes[tensorMagic.length + 2]? = some w := by
      rw [hb, List.getElem?_append_right (by decide)]
      rfl
    refine hdr_bad (s := tensorMagic) hb ?_
    refine R.Throws.step (a := ()) (if_neg (by simpa using hs.1)) (R.Throws.step (a := ()) (if_neg (by simpa using hs.2)) ?_)
    refine R.Throws.bind_left (R.Throws.lift ?_)
    rw [if_pos rfl, rdByte e3, ok_bind]
    simp only [sizeCheck]
    rw [if_pos h]
    rfl

/-- C42 does not reject its own files: what `save` writes has the magic and sizes. -/
example : ∃ rest, (Spec.cooFile 4 8 true (codecInt 4 (by decide)) binCoo) = str "PIGO-COO-v1" ++ 4 :: 8 :: rest := by
  simp only [Spec.cooFile, List.append_assoc]
  exact ⟨_, rfl⟩

/-! ## C43: truncated files -/

/-- No execution of `p` throws `Error`. -/
def R.NoThrow (p : R α) : Prop := ∀ o, p.Out o → o ≠ .error .error

theorem R.NoThrow.bind {p : R α} {k : α → R β} (hp : p.NoThrow) (hk : ∀ a, (k a).NoThrow) : (p >>= k).NoThrow := by
  rintro o ⟨o', ho', h⟩
  cases o' with
  | error f =>
    have := hp _ ho'
    rintro rfl
    injection h with h
    subst h
    exact this rfl
  | ok a => exact hk a o h

theorem R.NoThrow.pure (a : α) : (pure a : R α).NoThrow := by rintro o rfl h; cases h

theorem R.NoThrow.step {o : M α} {a : α} {k : α → R β} (h : o = .ok a) (hk : (k a).NoThrow) : (R.lift o >>= k).NoThrow := by
  rintro o' ⟨x, hx, h'⟩
  cases hx
  subst h
  exact hk o' h'

theorem R.NoThrow.lift {o : M α} (h : o ≠ .error .error) : (R.lift o).NoThrow := by rintro o' rfl; exact h

theorem get_noThrow (μ : Mapping) (p : Nat) : μ.get p ≠ .error .error := by
  unfold Mapping.get
  split
  · simp
  · split <;> simp

theorem bind_noThrow {x : M α} {k : α → M β} (hx : x ≠ .error .error) (hk : ∀ a, k a ≠ .error .error) : (x >>= k) ≠ .error .error := by
  cases x with
  | error f =>
    intro h
    have hf : f = .error := by injection h
    exact hx (by rw [hf])
  | ok a => exact hk a

theorem getBytes_noThrow (μ : Mapping) : ∀ n p, getBytes μ n p ≠ .error .error
  | 0, p => by simp [getBytes]
  | n+1, p => bind_noThrow (get_noThrow μ p) (fun _ => bind_noThrow (getBytes_noThrow μ n (p+1)) (fun _ => by simp))

theorem rdLE_noThrow (μ : Mapping) (k p : Nat) : rdLE μ k p ≠ .error .error := bind_noThrow (getBytes_noThrow μ k p) (fun _ => by simp)

theorem mapE_noThrow {f : α → M β} (hf : ∀ a, f a ≠ .error .error) : ∀ l, mapE f l ≠ .error .error
  | [] => by simp [mapE]
  | a :: l => bind_noThrow (hf a) (fun _ => bind_noThrow (mapE_noThrow hf l) (fun _ => by simp))

theorem stores_noThrow : ∀ (sched : List (Nat × α)) (a : List α), runActs storeAct sched a ≠ .error .error
  | [], a => by simp [runActs]
  | q :: l, a => bind_noThrow (by unfold storeAct store; split <;> simp) (fun _ => stores_noThrow l _)

theorem readArr_noThrow (T : Nat) (μ : Mapping) (k : Nat) (dec : List Byte → α) (n bytes p : Nat) : (readArr T μ k dec n bytes p).NoThrow := by
  unfold readArr
  refine R.NoThrow.bind (by rintro o ⟨a, _, rfl⟩; simp) (fun junk => R.NoThrow.bind ?_ (fun _ => R.NoThrow.pure _))
  unfold parRead
  refine R.NoThrow.bind (R.NoThrow.lift (mapE_noThrow (fun tid => bind_noThrow (mapE_noThrow (fun i => get_noThrow μ _) _) (fun _ => by simp)) _)) (fun t => ?_)
  refine R.NoThrow.bind ?_ (fun _ => R.NoThrow.pure _)
  rintro o ⟨sched, _, rfl⟩
  exact stores_noThrow sched _

theorem readWeights_noThrow (T : Nat) (μ : Mapping) (wgt : Bool) (cw : Codec W) (m p : Nat) : (readWeights T μ wgt cw m p).NoThrow := by
  unfold readWeights
  split
  · exact readArr_noThrow T μ _ _ _ _ p
  · exact R.NoThrow.pure _

theorem hdr_good {μ : Mapping} {s rest : List Byte} {a b : Byte} (hb : μ.bytes = s ++ a :: b :: rest) {k : Nat × Nat → Nat × Nat → R α}
    (h : (k (a.toNat, s.length + 1) (b.toNat, s.length + 2)).NoThrow) :
    (R.lift (rdStr μ s 0) >>= fun p => R.lift (rdLE μ 1 p) >>= fun x => R.lift (rdLE μ 1 x.2) >>= fun y => k x y).NoThrow := by
  obtain ⟨e1, e2⟩ := hdr_bytes hb
  have hm : HasAt μ 0 s := hasAt_zero (t := a :: b :: rest) hb (by simp)
  refine R.NoThrow.step (rdStr_good hm) (R.NoThrow.step (rdByte (by rw [Nat.zero_add]; exact e1)) (R.NoThrow.step (rdByte (by rw [Nat.zero_add]; exact e2)) ?_))
  simpa using h

/-- C43 is false: once the magic and the two sizes are there, no COO or CSR file is ever rejected — every truncation
after these 13 bytes is either loaded or read out of bounds. -/
theorem C43_truncation_violated (T : Nat) (wgt : Bool) (cw : Codec W) (μ : Mapping) (lb ob : Byte) (rest : List Byte) :
    (μ.bytes = str "PIGO-COO-v1" ++ lb :: ob :: rest → (readBinCoo T lb.toNat ob.toNat wgt cw μ 0).NoThrow) ∧
    (μ.bytes = str "PIGO-CSR-v2" ++ lb :: ob :: rest → (readBinCsr T lb.toNat ob.toNat wgt cw μ 0).NoThrow) := by
  constructor
  · intro hb
    refine hdr_good (s := cooMagic) hb (R.NoThrow.step (a := ()) (if_neg (by simp)) (R.NoThrow.step (a := ()) (if_neg (by simp)) ?_))
    refine R.NoThrow.bind (R.NoThrow.lift (rdLE_noThrow _ _ _)) (fun _ => R.NoThrow.bind (R.NoThrow.lift (rdLE_noThrow _ _ _)) (fun _ =>
      R.NoThrow.bind (R.NoThrow.lift (rdLE_noThrow _ _ _)) (fun _ => R.NoThrow.bind (R.NoThrow.lift (rdLE_noThrow _ _ _)) (fun _ => ?_))))
    exact R.NoThrow.bind (readArr_noThrow _ _ _ _ _ _ _) (fun _ => R.NoThrow.bind (readArr_noThrow _ _ _ _ _ _ _) (fun _ =>
      R.NoThrow.bind (readWeights_noThrow _ _ _ _ _ _) (fun _ => R.NoThrow.pure _)))
  · intro hb
    refine hdr_good (s := csrMagic) hb (R.NoThrow.step (a := ()) (if_neg (by simp)) (R.NoThrow.step (a := ()) (if_neg (by simp)) ?_))
    refine R.NoThrow.bind (R.NoThrow.lift (rdLE_noThrow _ _ _)) (fun _ => R.NoThrow.bind (R.NoThrow.lift (rdLE_noThrow _ _ _)) (fun _ =>
      R.NoThrow.bind (R.NoThrow.lift (rdLE_noThrow _ _ _)) (fun _ => R.NoThrow.bind (R.NoThrow.lift (rdLE_noThrow _ _ _)) (fun _ => ?_))))
    exact R.NoThrow.bind (readArr_noThrow _ _ _ _ _ _ _) (fun _ => R.NoThrow.bind (readArr_noThrow _ _ _ _ _ _ _) (fun _ =>
      R.NoThrow.bind (readWeights_noThrow _ _ _ _ _ _) (fun _ => R.NoThrow.pure _)))

/-- A COO of one edge, from 0 to 2³¹. -/
def cutCoo : Coo Nat := { x := [0], y := [2147483648], w := [], n := 4294967295, m := 1, nrows := 1, ncols := 4294967295 }

/-- The same with the edge from 0 to 0. -/
def cutCoo' : Coo Nat := { cutCoo with y := [0] }

/-- C43 is false, with a successful load: without its last byte the file of `cutCoo` loads, by every execution, as
the graph with the edge from 0 to 0. -/
theorem C43_loads_other_data_violated (T pad : Nat) (hT : 0 < T) (hp : 0 < pad) (cw : Codec Nat) :
    (readBinCoo T 4 8 false cw ⟨(Spec.cooFile 4 8 false cw cutCoo).dropLast, pad⟩ 0).All (fun r => r.1 = cutCoo') := by
  have hf : Spec.FitsCoo 4 8 false cw cutCoo' :=
    ⟨by decide, by decide, ⟨by decide, by intro v hv; simp [cutCoo', cutCoo] at hv⟩, by decide, by decide, by decide, by decide⟩
  have e : Spec.cooFile 4 8 false cw cutCoo = Spec.cooFile 4 8 false (codecNat 1 (by decide)) cutCoo := rfl
  have e' : cooBytes 4 8 false cw cutCoo' = cooBytes 4 8 false (codecNat 1 (by decide)) cutCoo' := rfl
  have hd : (Spec.cooFile 4 8 false (codecNat 1 (by decide)) cutCoo).dropLast ++ [0] = cooBytes 4 8 false (codecNat 1 (by decide)) cutCoo' := by decide
  refine (readBinCoo_at (l := List.replicate (pad - 1) 0) hT (by decide) (by decide) cw hf (μ := ⟨(Spec.cooFile 4 8 false cw cutCoo).dropLast, pad⟩) ⟨Nat.zero_le _, ?_⟩ ?_).mono
    (fun r hr => by rw [hr])
  · show _ ++ List.replicate pad 0 = _
    obtain ⟨q, rfl⟩ : ∃ q, pad = q + 1 := ⟨pad - 1, by omega⟩
    rw [e, e', ← hd, List.append_assoc]
    rfl
  · show 0 + cooMagic.length < (Spec.cooFile 4 8 false cw cutCoo).dropLast.length
    rw [e]; decide

/-- C43, the part that holds: a file cut inside or directly after the magic is rejected (every type). -/
theorem C43_inside_magic_partial (T lb ob : Nat) (wgt : Bool) (cw : Codec W) (P : Params W) (fn : List Byte) (k pad : Nat)
    (c : Coo W) (r : Csr W) (t : Tensor W) (g : DiGraph W) :
    (k ≤ 11 → (readBinCoo T lb ob wgt cw ⟨(Spec.cooFile lb ob wgt cw c).take k, pad⟩ 0).Throws) ∧
    (k ≤ 11 → (readBinCsr T lb ob wgt cw ⟨(Spec.csrFile lb ob wgt cw r).take k, pad⟩ 0).Throws) ∧
    (k ≤ 13 → (readBinTensor T lb ob wgt cw ⟨(Spec.tensorFile lb ob wgt cw t).take k, pad⟩ 0).Throws) ∧
    (k ≤ 15 → (readDiGraphBin P ⟨(Spec.digraphFile lb ob wgt cw g).take k, pad⟩ fn 0).Throws) := by
  have hno : ∀ (s bs : List Byte), k ≤ s.length → ¬ HasAt ⟨bs.take k, pad⟩ 0 s := by
    intro s bs hk h
    have := h.2
    simp only [List.length_take] at this
    omega
  obtain ⟨m1, m2, m3, m4⟩ := C42_magic T lb ob wgt cw P fn ⟨(Spec.cooFile lb ob wgt cw c).take k, pad⟩ 0
  refine ⟨fun hk => m1 (hno _ _ hk), fun hk => ?_, fun hk => ?_, fun hk => ?_⟩
  · exact (C42_magic T lb ob wgt cw P fn ⟨(Spec.csrFile lb ob wgt cw r).take k, pad⟩ 0).2.1 (hno _ _ hk)
  · exact (C42_magic T lb ob wgt cw P fn ⟨(Spec.tensorFile lb ob wgt cw t).take k, pad⟩ 0).2.2.1 (hno _ _ hk)
  · exact (C42_magic T lb ob wgt cw P fn ⟨(Spec.digraphFile lb ob wgt cw g).take k, pad⟩ 0).2.2.2 (hno _ _ hk)

/-- The first 9 bytes of a saved CSR. -/
example : ((Spec.csrFile 4 8 true (codecNat 1 (by decide)) binCsr).take 9) = str "PIGO-CSR-" ∧
    (readBinCsr 2 4 8 true (codecNat 1 (by decide)) ⟨(Spec.csrFile 4 8 true (codecNat 1 (by decide)) binCsr).take 9, 0⟩ 0).Throws :=
  ⟨by decide, (C43_inside_magic_partial 2 4 8 true (codecNat 1 (by decide)) binParams (str "a.bin") 9 0
    ⟨[], [], [], 0, 0, 0, 0⟩ binCsr binTensor ⟨binCsr, binCsr⟩).2.1 (by decide)⟩

end Pigo
