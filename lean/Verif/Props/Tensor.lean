import Verif.Lemmas.TensorLoad
import Verif.Props.Binary2
import Verif.Props.Write

/-!
# Properties: tensors in text files, `max_labels`

C49, C51–C53.  `readTensor` is `Tensor(fn, ft)`: all interleavings of the threads' stores and all contents of
uninitialised memory.  `TFormat wk entry wp` lists the weight types with the way their entries are written.
-/

namespace Pigo

variable {W : Type}

/-! ## C51: the order -/

theorem readTensorEl_order {μ : Mapping} {lw ow T : Nat} {wk : WKind W} {r : Reader} {k : Nat} (h : tensorOrder μ ow wk.wgt r = .ok k) {t : Tensor W}
    (hrun : (readTensorEl μ lw ow wk T r).Out (.ok t)) : t.order = k := by
  obtain ⟨o, rfl, hrun⟩ := hrun
  cases hp : tensorPlan μ lw ow wk T r with
  | error x => rw [hp] at hrun; cases hrun
  | ok p =>
    rw [hp] at hrun
    have hpo : p.order = k := by
      unfold tensorPlan at hp
      rw [h, ok_bind] at hp
      cases h1 : mapE (elRegion μ r T) (List.range T) with
      | error x => rw [h1] at hp; cases hp
      | ok regions =>
        rw [h1, ok_bind] at hp
        cases h2 : mapE (tensorCountAll μ lw wk k) regions with
        | error x => rw [h2] at hp; cases hp
        | ok counts =>
          rw [h2, ok_bind] at hp
          simp only at hp
          cases h3 : mapE (tensorSetAll μ lw wk k (prefixSums 0 counts)) ((List.range T).zip regions) with
          | error x => rw [h3] at hp; cases hp
          | ok acts =>
            rw [h3, ok_bind] at hp
            injection hp with hp
            rw [← hp]
    obtain ⟨o1, ⟨jc, _, rfl⟩, o2, ⟨jw, _, rfl⟩, o3, hmem, hrun⟩ := hrun
    cases o3 with
    | error x => cases hrun
    | ok mem =>
      have : (.ok t : M (Tensor W)) = .ok { c := mem.c, w := mem.w, order := p.order, m := p.m } := hrun
      injection this with this
      rw [this]; exact hpo

theorem readTensor_text {P : Params W} {μ : Mapping} {fn : List Byte} {ft : FileType} (hft : usedType μ fn 0 ft = .ok .edgeList) :
    readTensor P μ fn 0 ft = readTensorEl μ (8 * P.lb) (8 * P.ob) P.wk P.T (fileReader μ) := by
  unfold readTensor
  rw [hft]
  funext o
  apply propext
  constructor
  · rintro ⟨o1, h1, h2⟩
    cases h1
    exact h2
  · intro h
    exact ⟨_, rfl, h⟩

/-- C51: if the first data line `l` is ended by a newline and written plainly (numbers without exponent, no tab or
carriage return after the last one), every load that succeeds has the order given by the number of words on `l`. -/
theorem C51_order_partial (P : Params W) (μ : Mapping) (hpad : 0 < μ.pad) (fn : List Byte) (ft : FileType) (hft : usedType μ fn 0 ft = .ok .edgeList)
    (A B : List (List Byte)) (l : List Byte) (hlines : Spec.lines μ.bytes = A ++ l :: B) (hA : ∀ l ∈ A, Spec.ints l = []) (hl : Spec.ints l ≠ []) (hB : B ≠ [])
    (hp : Spec.PlainLine l) (hw : (Spec.words l).length < 2 ^ (8 * P.ob)) (t : Tensor W) (hrun : (readTensor P μ fn 0 ft).Out (.ok t)) :
    t.order = (Spec.words l).length - if P.wk.wgt then 1 else 0 := by
  rw [readTensor_text hft] at hrun
  refine readTensorEl_order ?_ hrun
  have hB' := List.dropLast_concat_getLast hB
  have hbytes : μ.bytes = text (A ++ l :: B.dropLast) ++ B.getLast hB := by
    rw [text_lines μ.bytes]
    have h1 : (Spec.lines μ.bytes).dropLast = A ++ l :: B.dropLast := by
      have : Spec.lines μ.bytes = (A ++ l :: B.dropLast) ++ [B.getLast hB] := by rw [hlines, List.append_assoc, List.cons_append, hB']
      rw [this, List.dropLast_concat]
    have h2 : ∀ (L : List (List Byte)) (h : L ≠ []), L = (A ++ l :: B.dropLast) ++ [B.getLast hB] → L.getLast h = B.getLast hB := by
      rintro L h rfl
      exact List.getLast_concat
    rw [h1, h2 _ _ (by rw [hlines, List.append_assoc, List.cons_append, hB'])]
  have v : View μ μ.bytes.length (text (A ++ l :: B.dropLast) ++ B.getLast hB) := by
    rw [← hbytes]; exact View.full μ
  have hfr : fileReader μ = rd μ.bytes.length (text (A ++ l :: B.dropLast) ++ B.getLast hB) := by
    rw [← hbytes]; simp [fileReader, rd]
  rw [hfr]
  refine tensorOrder_eq (by unfold Readable; omega) ?_ v hA hl hp hw
  intro x hx
  refine lines_noNl μ.bytes x ?_
  rw [hlines]
  rcases List.mem_append.mp hx with h | h
  · exact List.mem_append_left _ h
  · rcases List.mem_cons.mp h with rfl | h
    · simp
    · exact List.mem_append_right _ (List.mem_cons_of_mem _ (List.dropLast_subset _ h))

/-- A weighted tensor of order 3 with comments, blank lines and several blanks. -/
def txFile : Mapping := ⟨str "# 1 2\n\n 0 1  2 -5 # c\n30 4 5\t7\n", 9⟩

theorem tx_lines : Spec.lines txFile.bytes = [str "# 1 2", []] ++ str " 0 1  2 -5 # c" :: [str "30 4 5\t7", []] := by decide

theorem tx_words : Spec.words (str " 0 1  2 -5 # c") = [str "0", str "1", str "2", str "-5"] := by decide

instance (t : List Byte) : Decidable (Spec.plainNumber t) := inferInstanceAs (Decidable (_ ∧ _))

theorem tx_plain : Spec.PlainLine (str " 0 1  2 -5 # c") := by
  refine ⟨by rw [tx_words]; decide, ?_⟩
  have h : Spec.stripComment (str " 0 1  2 -5 # c") = str " 0 1  2 -5" ++ [32] := by decide
  intro s hs hb b hbs
  rw [h] at hs
  obtain ⟨u, hu⟩ := hs
  rcases List.eq_nil_or_concat s with rfl | ⟨s', c, rfl⟩
  · cases hbs
  · rw [List.concat_eq_append, ← List.append_assoc] at hu
    have h1 := List.append_inj_right' hu (by rfl)
    have h2 := List.append_inj_left' hu (by rfl)
    injection h1 with h1 _
    rcases List.eq_nil_or_concat s' with rfl | ⟨s2, c2, rfl⟩
    · simp only [List.concat_eq_append, List.nil_append, List.mem_singleton] at hbs
      rw [hbs, h1]; decide
    · exfalso
      rw [List.concat_eq_append, ← List.append_assoc, show str " 0 1  2 -5" = str " 0 1  2 -" ++ [53] by decide] at h2
      have h3 := List.append_inj_right' h2 (by rfl)
      injection h3 with h3 _
      have := hb c2 (by simp)
      rw [h3] at this
      exact absurd this (by decide)

example : 0 < txFile.pad ∧ usedType txFile (str "a.tns") 0 .auto = .ok .edgeList ∧ (∀ l ∈ [str "# 1 2", []], Spec.ints l = []) ∧
    Spec.ints (str " 0 1  2 -5 # c") ≠ [] ∧ (Spec.words (str " 0 1  2 -5 # c")).length = 4 := by
  refine ⟨by decide, by decide, by decide, by decide, by rw [tx_words]; rfl⟩

/-- C51 is false in general.  Each of these files has one data line of order `k`; the load never returns a tensor of
order `k`: a weight with an exponent, a carriage return, a trailing tab, and a line not ended by a newline. -/
def badOrder : List (Bool × Nat × Mapping) :=
  [(true, 2, ⟨str "0 1 1e5\n", 9⟩), (false, 2, ⟨str "0 1\r\n", 9⟩), (false, 2, ⟨str "0 1\t\n", 9⟩), (false, 2, ⟨str "0 1", 9⟩)]

theorem C51_order_violated (P : Params W) (hob : P.ob = 4 ∨ P.ob = 8) (fn : List Byte) (k : Nat) (μ : Mapping) (h : (P.wk.wgt, k, μ) ∈ badOrder) :
    (∃ l ∈ Spec.lines μ.bytes, Spec.firstData μ.bytes = some l ∧ (Spec.words l).length = k + if P.wk.wgt then 1 else 0) ∧
    ∀ t, (readTensor P μ fn 0 .edgeList).Out (.ok t) → t.order = k + 1 := by
  rw [readTensor_text (show usedType μ fn 0 .edgeList = .ok .edgeList from rfl)]
  suffices hh : (∃ l ∈ Spec.lines μ.bytes, Spec.firstData μ.bytes = some l ∧ (Spec.words l).length = k + if P.wk.wgt then 1 else 0) ∧
      tensorOrder μ (8 * P.ob) P.wk.wgt (fileReader μ) = .ok (k + 1) from ⟨hh.1, fun t ht => readTensorEl_order hh.2 ht⟩
  generalize P.wk.wgt = b at h
  simp only [badOrder, List.mem_cons, Prod.mk.injEq, List.not_mem_nil, or_false] at h
  rcases h with ⟨rfl, rfl, rfl⟩ | ⟨rfl, rfl, rfl⟩ | ⟨rfl, rfl, rfl⟩ | ⟨rfl, rfl, rfl⟩
  · exact ⟨⟨str "0 1 1e5", by decide, by decide, by decide⟩, by rcases hob with h | h <;> rw [h] <;> decide⟩
  · exact ⟨⟨str "0 1\r", by decide, by decide, by decide⟩, by rcases hob with h | h <;> rw [h] <;> decide⟩
  · exact ⟨⟨str "0 1\t", by decide, by decide, by decide⟩, by rcases hob with h | h <;> rw [h] <;> decide⟩
  · exact ⟨⟨str "0 1", by decide, by decide, by decide⟩, by rcases hob with h | h <;> rw [h] <;> decide⟩

/-- Such a load can succeed: a file with the two entries `(0,1)` and `(2,3)` and carriage returns is loaded by one thread as a
tensor with the single entry `(0,1,2)`. -/
theorem C51_loads_violated :
    (readTensorEl ⟨str "0 1\r\n2 3\r\n", 9⟩ 32 64 wNone 1 (fileReader ⟨str "0 1\r\n2 3\r\n", 9⟩)).Out (.ok { c := [0, 1, 2], w := [], order := 3, m := 1 }) := by
  refine ⟨_, rfl, ?_⟩
  have hp : tensorPlan ⟨str "0 1\r\n2 3\r\n", 9⟩ 32 64 wNone 1 (fileReader ⟨str "0 1\r\n2 3\r\n", 9⟩) =
      .ok { order := 3, m := 1, threads := [[.setC 0 0, .setC 1 1, .setC 2 2]] } := by decide
  rw [hp]
  exact ⟨_, ⟨fun _ => 0, trivial, rfl⟩, _, ⟨fun _ => (), trivial, rfl⟩, .ok ⟨[0, 1, 2], []⟩, ⟨_, interleave_flatten _, by decide⟩, rfl⟩

/-- With a single line the load by one thread stores outside of the allocated (empty) array. -/
theorem C51_oob_violated : (readTensorEl ⟨str "0 1\r\n", 9⟩ 32 64 wNone 1 (fileReader ⟨str "0 1\r\n", 9⟩)).Out (.error .oob) := by
  refine ⟨_, rfl, ?_⟩
  have hp : tensorPlan ⟨str "0 1\r\n", 9⟩ 32 64 wNone 1 (fileReader ⟨str "0 1\r\n", 9⟩) =
      .ok { order := 3, m := 0, threads := [[.setC 0 0, .setC 1 1]] } := by decide
  rw [hp]
  exact ⟨_, ⟨fun _ => 0, trivial, rfl⟩, _, ⟨fun _ => (), trivial, rfl⟩, .error .oob, ⟨_, interleave_flatten _, by decide⟩, rfl⟩

/-! ## C52: loading -/

/-- C52: loading a well-formed text tensor gives exactly its entries in file order, with any number of threads. -/
theorem C52_tensor_load (P : Params W) (hT : 0 < P.T) (μ : Mapping) (hpad : 0 < μ.pad) (fn : List Byte) (ft : FileType)
    (hft : usedType μ fn 0 ft = .ok .edgeList) (entry : Nat → List Byte → Option (List Nat × W)) (wp : List Nat × W → Prop) (hf : TFormat P.wk entry wp)
    (k : Nat) (hk : 0 < k) (hok : Spec.TensorOk P.wk.wgt entry k μ.bytes) (hwp : ∀ en ∈ Spec.entries (entry k) μ.bytes, wp en)
    (hlab : ∀ en ∈ Spec.entries (entry k) μ.bytes, ∀ x ∈ en.1, x < 2 ^ (8 * P.lb)) (hkw : k + 1 < 2 ^ (8 * P.ob))
    (hkm : k * (Spec.entries (entry k) μ.bytes).length < 2 ^ (8 * P.ob)) :
    (readTensor P μ fn 0 ft).All (fun t => HoldsT t P.wk.wgt (Spec.entries (entry k) μ.bytes) ∧ (Spec.entries (entry k) μ.bytes ≠ [] → t.order = k)) := by
  rw [readTensor_text hft]
  exact readTensorEl_file hpad hf hk hok hwp hlab hT hkw hkm

theorem tx_entries : Spec.entries (Spec.tensorEntryW Spec.parseSigned 3) txFile.bytes = [([0, 1, 2], -5), ([30, 4, 5], 7)] := by decide

theorem tx_ok : Spec.TensorOk true (Spec.tensorEntryW Spec.parseSigned) 3 txFile.bytes := by
  refine ⟨⟨by decide, by decide⟩, ?_⟩
  intro l hl
  have : Spec.firstData txFile.bytes = some (str " 0 1  2 -5 # c") := by decide
  rw [this] at hl
  injection hl with hl
  subst hl
  exact ⟨tx_plain, by rw [tx_words]; rfl⟩

/-- The hypotheses of C52 are met by `txFile` (signed weights of 32 bits) and its load has the two entries. -/
example (P : Params Int) (hP : P.T = 3 ∧ P.lb = 4 ∧ P.ob = 8 ∧ P.wk = wSint 32) :
    (readTensor P txFile (str "a.tns") 0 .auto).All (fun t => t.c = [0, 1, 2, 30, 4, 5] ∧ t.w = [-5, 7] ∧ t.order = 3 ∧ t.m = 2) := by
  obtain ⟨h1, h2, h3, h4⟩ := hP
  refine (C52_tensor_load P (by omega) txFile (by decide) _ _ (by decide) (Spec.tensorEntryW Spec.parseSigned) _ (by rw [h4]; exact .sint 32) 3 (by decide)
    (by rw [h4]; exact tx_ok) (by rw [tx_entries]; decide) (by rw [tx_entries, h2]; decide) (by rw [h3]; decide) (by rw [tx_entries, h3]; decide)).mono (fun t ht => ?_)
  rw [tx_entries, h4] at ht
  obtain ⟨⟨a, b, c, d⟩, e⟩ := ht
  exact ⟨c, d rfl, e (by simp), a⟩

/-! ## C49: write and read back -/

/-- C49, unweighted. -/
theorem C49_unweighted (T : Nat) (P : Params Unit) (hP : P.wk = wNone) (hT : 0 < P.T) (pad : Nat) (hpad : 0 < pad) (fn : List Byte) (t : Tensor Unit) (es : List (List Nat × Unit))
    (h : HoldsT t false es) (hne : es ≠ []) (ho : 0 < t.order) (how : t.order + 1 < 2 ^ (8 * P.ob)) (hm : t.order * t.m < 2 ^ (8 * P.ob))
    (hlab : ∀ e ∈ es, ∀ x ∈ e.1, x < 2 ^ (8 * P.lb)) :
    (writeTensor T P.ob wtNone t).All (fun bs => (readTensor P ⟨bs, pad⟩ fn 0 .edgeList).All (fun t' => HoldsT t' false es ∧ t'.order = t.order)) := by
  refine (C48_tensor_write T P.ob wtNone _ _ .none t es h ho (by rwa [show (256 : Nat) = 2 ^ 8 from rfl, ← Nat.pow_mul]) (fun _ _ => trivial) hne).mono (fun bs hbs => ?_)
  subst hbs
  obtain ⟨h1, h2⟩ := tensorText_ok (wgt := false) (txt := fun _ => []) (es := es) ho h.order (fun _ _ hg => absurd hg (by simp)) (entry := Spec.tensorEntry0)
    (fun e he => by rw [← h.order e he]; exact tensorEntry0_words _ e)
  have := C52_tensor_load P hT ⟨es.flatMap (fun e => Spec.tensorLine false (fun _ => []) e), pad⟩ hpad fn .edgeList rfl Spec.tensorEntry0 (fun _ => True)
    (by rw [hP]; exact .none) t.order ho (by rw [hP]; exact h1) (fun _ _ => trivial) (by simp only; rw [h2]; exact hlab) how (by simp only; rw [h2, ← h.m]; exact hm)
  simp only [h2, hP] at this
  exact this.mono (fun t' ht' => ⟨ht'.1, ht'.2 hne⟩)

theorem C49_weighted {txt : W → List Byte} {parse : List Byte → Option W} (T : Nat) (wt : WText W) (hwt : wt.wgt = true) (ok : W → Prop) (hpr : Printer wt txt ok)
    (P : Params W) (wp : List Nat × W → Prop) (hf : TFormat P.wk (Spec.tensorEntryW parse) wp) (hwk : P.wk.wgt = true)
    (hT : 0 < P.T) (pad : Nat) (hpad : 0 < pad) (fn : List Byte) (t : Tensor W) (es : List (List Nat × W))
    (h : HoldsT t true es) (hne : es ≠ []) (ho : 0 < t.order) (how : t.order + 1 < 2 ^ (8 * P.ob)) (hm : t.order * t.m < 2 ^ (8 * P.ob))
    (hlab : ∀ e ∈ es, ∀ x ∈ e.1, x < 2 ^ (8 * P.lb)) (hok : ∀ e ∈ es, ok e.2 ∧ wp e)
    (hw : ∀ e ∈ es, Word (txt e.2) ∧ Spec.plainNumber (txt e.2) ∧ parse (txt e.2) = some e.2) :
    (writeTensor T P.ob wt t).All (fun bs => (readTensor P ⟨bs, pad⟩ fn 0 .edgeList).All (fun t' => HoldsT t' true es ∧ t'.order = t.order)) := by
  refine (C48_tensor_write T P.ob wt txt ok hpr t es (by rw [hwt]; exact h) ho (by rwa [show (256 : Nat) = 2 ^ 8 from rfl, ← Nat.pow_mul]) (fun e he => (hok e he).1) hne).mono
    (fun bs hbs => ?_)
  subst hbs
  rw [hwt]
  obtain ⟨h1, h2⟩ := tensorText_ok (wgt := true) (txt := txt) (es := es) ho h.order (fun e he _ => ⟨(hw e he).1, (hw e he).2.1⟩) (entry := Spec.tensorEntryW parse)
    (fun e he => by rw [← h.order e he]; exact tensorEntryW_words e (hw e he).1 (hw e he).2.2)
  have := C52_tensor_load P hT ⟨es.flatMap (fun e => Spec.tensorLine true txt e), pad⟩ hpad fn .edgeList rfl (Spec.tensorEntryW parse) wp
    hf t.order ho (by rw [hwk]; exact h1) (by simp only; rw [h2]; exact fun e he => (hok e he).2) (by simp only; rw [h2]; exact hlab) how (by simp only; rw [h2, ← h.m]; exact hm)
  simp only [h2, hwk] at this
  exact this.mono (fun t' ht' => ⟨ht'.1, ht'.2 hne⟩)

/-- C49, unsigned weights of `ww` bits. -/
theorem C49_unsigned (T : Nat) (P : Params Nat) (ww : Nat) (hP : P.wk = wUint ww) (hT : 0 < P.T) (pad : Nat) (hpad : 0 < pad) (fn : List Byte) (t : Tensor Nat) (es : List (List Nat × Nat))
    (h : HoldsT t true es) (hne : es ≠ []) (ho : 0 < t.order) (how : t.order + 1 < 2 ^ (8 * P.ob)) (hm : t.order * t.m < 2 ^ (8 * P.ob))
    (hlab : ∀ e ∈ es, ∀ x ∈ e.1, x < 2 ^ (8 * P.lb)) (hw : ∀ e ∈ es, e.2 < 2 ^ ww) :
    (writeTensor T P.ob wtUint t).All (fun bs => (readTensor P ⟨bs, pad⟩ fn 0 .edgeList).All (fun t' => HoldsT t' true es ∧ t'.order = t.order)) := by
  refine C49_weighted T wtUint rfl _ .uint P _ (by rw [hP]; exact .uint ww) (by rw [hP]; rfl) hT pad hpad fn t es h hne ho how hm hlab (fun e he => ⟨trivial, hw e he⟩)
    (fun e _ => ⟨showNat_word _, plain_showNat _, ?_⟩)
  rw [Spec.parseUnsigned, if_pos (showNat_allDigit _), decimal_showNat]

/-- C49, signed weights of `ww` bits (the smallest value excluded, see C02). -/
theorem C49_signed (T : Nat) (P : Params Int) (ww : Nat) (hP : P.wk = wSint ww) (hT : 0 < P.T) (pad : Nat) (hpad : 0 < pad) (fn : List Byte) (t : Tensor Int) (es : List (List Nat × Int))
    (h : HoldsT t true es) (hne : es ≠ []) (ho : 0 < t.order) (how : t.order + 1 < 2 ^ (8 * P.ob)) (hm : t.order * t.m < 2 ^ (8 * P.ob))
    (hlab : ∀ e ∈ es, ∀ x ∈ e.1, x < 2 ^ (8 * P.lb)) (hw : ∀ e ∈ es, e.2.natAbs < 2 ^ (ww - 1)) :
    (writeTensor T P.ob (wtInt ww) t).All (fun bs => (readTensor P ⟨bs, pad⟩ fn 0 .edgeList).All (fun t' => HoldsT t' true es ∧ t'.order = t.order)) :=
  C49_weighted T (wtInt ww) rfl _ (.sint ww) P _ (by rw [hP]; exact .sint ww) (by rw [hP]; rfl) hT pad hpad fn t es h hne ho how hm hlab (fun e he => ⟨hw e he, hw e he⟩)
    (fun e _ => ⟨showInt_word _, plain_showInt _, parseSigned_showInt _⟩)

/-- C49, floating point weights: if the text written for each weight is a number without exponent whose value (in the
reader's arithmetic) is the weight, the tensor is read back. -/
theorem C49_float {V : Type} (ops : FpOps V) (txt : V → List Byte) (T : Nat) (P : Params V) (hP : P.wk = wFp ops) (hT : 0 < P.T) (pad : Nat) (hpad : 0 < pad) (fn : List Byte)
    (t : Tensor V) (es : List (List Nat × V)) (h : HoldsT t true es) (hne : es ≠ []) (ho : 0 < t.order) (how : t.order + 1 < 2 ^ (8 * P.ob)) (hm : t.order * t.m < 2 ^ (8 * P.ob))
    (hlab : ∀ e ∈ es, ∀ x ∈ e.1, x < 2 ^ (8 * P.lb))
    (hw : ∀ e ∈ es, Word (txt e.2) ∧ Spec.plainNumber (txt e.2) ∧ (Spec.parseLit (txt e.2)).map (evalLit ops) = some e.2) :
    (writeTensor T P.ob (wtFloat txt) t).All (fun bs => (readTensor P ⟨bs, pad⟩ fn 0 .edgeList).All (fun t' => HoldsT t' true es ∧ t'.order = t.order)) :=
  C49_weighted T (wtFloat txt) rfl _ (.float txt) P _ (by rw [hP]; exact .float ops) (by rw [hP]; rfl) hT pad hpad fn t es h hne ho how hm hlab (fun _ _ => ⟨trivial, trivial⟩) hw

/-- The hypotheses of C49 are met by `wrTensor` (order 3, two entries). -/
example : HoldsT wrTensor true [([0, 1, 2], 1), ([30, 4, 5], 20)] ∧ wrTensor.order + 1 < 2 ^ (8 * 1) ∧ wrTensor.order * wrTensor.m < 2 ^ (8 * 1) ∧
    (∀ e ∈ ([([0, 1, 2], 1), ([30, 4, 5], 20)] : List (List Nat × Nat)), (∀ x ∈ e.1, x < 2 ^ (8 * 1)) ∧ e.2 < 2 ^ 8) :=
  ⟨⟨rfl, by decide, rfl, fun _ => rfl⟩, by decide, by decide, by decide⟩

/-! ## C53: the largest labels -/

theorem maxEntry_ok {ow e k : Nat} {t : Tensor W} {v : Nat → Nat} (hv : ∀ j < k, load t.c (inOrd ow (e * t.order + j)) = .ok (v j)) :
    ∀ (is : List Nat) (f : Nat → Nat), (∀ i ∈ is, i < k) → is.Nodup → maxEntry ow t e is (alloc f k) = .ok (alloc (fun j => if j ∈ is then max (f j) (v j) else f j) k)
  | [], f, _, _ => by simp [maxEntry]
  | i :: is, f, h, hn => by
    have hi := h i (by simp)
    rw [List.nodup_cons] at hn
    rw [maxEntry, hv i hi, ok_bind, load_alloc f hi, ok_bind]
    have hst : storeMax (alloc f k) i (v i) (f i) = .ok (alloc (fun j => if j = i then max (f j) (v j) else f j) k) := by
      unfold storeMax
      split
      · rename_i hgt
        rw [store_alloc f hi]
        congr 2
        funext j
        by_cases hj : j = i
        · subst hj; simp; omega
        · simp [hj]
      · congr 2
        funext j
        by_cases hj : j = i
        · subst hj; simp; omega
        · simp [hj]
    rw [hst, ok_bind, maxEntry_ok hv is _ (fun j hj => h j (List.mem_cons_of_mem _ hj)) hn.2]
    congr 2
    funext j
    by_cases hj : j = i
    · subst hj
      simp [hn.1]
    · simp [hj]

theorem maxThread_ok {ow : Nat} {t : Tensor W} {v : Nat → Nat → Nat} : ∀ (l : List Nat) (f : Nat → Nat),
    (∀ e ∈ l, ∀ j < t.order, load t.c (inOrd ow (e * t.order + j)) = .ok (v e j)) →
    maxThread ow t l (alloc f t.order) = .ok (alloc (fun j => max (f j) (Spec.maxOf (l.map (fun e => v e j)))) t.order)
  | [], f, _ => by simp [maxThread, Spec.maxOf]
  | e :: l, f, h => by
    rw [maxThread, maxEntry_ok (h e (by simp)) _ f (fun i hi => List.mem_range.mp hi) List.nodup_range, ok_bind,
      maxThread_ok l _ (fun e he => h e (List.mem_cons_of_mem _ he))]
    congr 1
    apply alloc_congr
    intro j hj
    rw [if_pos (List.mem_range.mpr hj), List.map_cons, maxOf_cons]
    omega

theorem maxMerge_ok {k : Nat} (g : Nat → Nat) : ∀ (is : List Nat) (f : Nat → Nat), (∀ i ∈ is, i < k) → is.Nodup →
    maxMerge (alloc g k) is (alloc f k) = .ok (alloc (fun j => if j ∈ is then max (f j) (g j) else f j) k)
  | [], f, _, _ => by simp [maxMerge]
  | i :: is, f, h, hn => by
    have hi := h i (by simp)
    rw [List.nodup_cons] at hn
    rw [maxMerge, load_alloc g hi, ok_bind, load_alloc f hi, ok_bind]
    have hst : storeMax (alloc f k) i (g i) (f i) = .ok (alloc (fun j => if j = i then max (f j) (g j) else f j) k) := by
      unfold storeMax
      split
      · rw [store_alloc f hi]
        congr 2
        funext j
        by_cases hj : j = i
        · subst hj; simp; omega
        · simp [hj]
      · congr 2
        funext j
        by_cases hj : j = i
        · subst hj; simp; omega
        · simp [hj]
    rw [hst, ok_bind, maxMerge_ok g is _ (fun j hj => h j (List.mem_cons_of_mem _ hj)) hn.2]
    congr 2
    funext j
    by_cases hj : j = i
    · subst hj
      simp [hn.1]
    · simp [hj]

theorem maxMergeAll_ok {k : Nat} : ∀ (gs : List (Nat → Nat)) (f : Nat → Nat),
    maxMergeAll k (gs.map (fun g => alloc g k)) (alloc f k) = .ok (alloc (fun j => max (f j) (Spec.maxOf (gs.map (fun g => g j)))) k)
  | [], f => by simp [maxMergeAll, Spec.maxOf]
  | g :: gs, f => by
    rw [List.map_cons, maxMergeAll, maxMerge_ok g _ f (fun i hi => List.mem_range.mp hi) List.nodup_range, ok_bind, maxMergeAll_ok gs _]
    congr 1
    apply alloc_congr
    intro j hj
    rw [if_pos (List.mem_range.mpr hj), List.map_cons, maxOf_cons]
    omega

theorem maxOf_flatten (ls : List (List Nat)) : Spec.maxOf (ls.map Spec.maxOf) = Spec.maxOf ls.flatten := by
  induction ls with
  | nil => rfl
  | cons l ls ih => rw [List.map_cons, maxOf_cons, ih, List.flatten_cons, maxOf_append]

theorem maxOf_perm {l l' : List Nat} (h : l.Perm l') : Spec.maxOf l = Spec.maxOf l' := by
  induction h with
  | nil => rfl
  | cons a _ ih => rw [maxOf_cons, maxOf_cons, ih]
  | swap a b l => simp only [maxOf_cons]; omega
  | trans _ _ h1 h2 => rw [h1, h2]

/-- C53: `max_labels()` returns the largest coordinate of every dimension (0 if there is no entry), with any number of
threads and any assignment of the entries to them. -/
theorem C53_max_labels (T ob : Nat) (t : Tensor W) (wgt : Bool) (es : List (List Nat × W)) (h : HoldsT t wgt es) (hfit : t.order * t.m < 256 ^ ob) :
    (maxLabels (8 * ob) T t).All (fun ret => ret.length = t.order ∧ ∀ j, j < t.order → ret[j]? = some (Spec.maxOf (es.map (fun e => e.1.getD j 0)))) := by
  have hpow : 256 ^ ob = 2 ^ (8 * ob) := by rw [show (256 : Nat) = 2 ^ 8 from rfl, ← Nat.pow_mul]
  have hload : ∀ e < es.length, ∀ j < t.order, load t.c (inOrd (8 * ob) (e * t.order + j)) = .ok (((es.map (fun e => e.1)).getD e []).getD j 0) := by
    intro e he j hj
    have hg := List.getElem?_eq_getElem he
    have hlen := h.order _ (List.getElem_mem he)
    have hv : (es[e]).1[j]? = some ((es[e]).1[j]'(by omega)) := List.getElem?_eq_getElem _
    rw [h.coord hfit hg hv]
    congr 1
    simp [List.getD, he, hv]
  refine R.All.bind (R.All.choose (fun its hits => hits)) (fun its hits => ?_)
  have hlt : ∀ l ∈ its, ∀ e ∈ l, e < es.length := by
    intro l hl e he
    rw [← h.m]
    exact List.mem_range.mp (hits.all.mem_iff.mp (List.mem_flatten.mpr ⟨l, hl, he⟩))
  have h0 : List.replicate t.order 0 = alloc (fun _ => 0) t.order := by
    simp [alloc, List.map_const']
  have h1 : mapE (fun l => maxThread (8 * ob) t l (List.replicate t.order 0)) its =
      .ok ((its.map (fun l j => Spec.maxOf (l.map (fun e => ((es.map (fun e => e.1)).getD e []).getD j 0)))).map (fun g => alloc g t.order)) := by
    rw [List.map_map]
    refine mapE_mem_ok (fun l hl => ?_)
    rw [h0, maxThread_ok (v := fun e j => ((es.map (fun e => e.1)).getD e []).getD j 0) l _ (fun e he => hload e (hlt l hl e he))]
    simp
  refine R.All.bind (R.All.lift h1 rfl) (fun ms hms => ?_)
  subst hms
  refine R.All.lift (by rw [h0]; exact maxMergeAll_ok _ _) ?_
  refine ⟨by simp [alloc], fun j hj => ?_⟩
  rw [alloc_getElem? _ hj]
  congr 1
  rw [Nat.zero_max, List.map_map]
  have e1 : ((fun g : Nat → Nat => g j) ∘ fun l j => Spec.maxOf (l.map (fun e => ((es.map (fun e => e.1)).getD e []).getD j 0))) =
      Spec.maxOf ∘ List.map (fun e => ((es.map (fun e => e.1)).getD e []).getD j 0) := rfl
  rw [e1, ← List.map_map, maxOf_flatten, ← List.map_flatten, maxOf_perm (hits.all.map _), h.m]
  congr 1
  apply List.ext_getElem? 
  intro i
  by_cases hi : i < es.length
  · simp [hi, List.getD]
  · simp [hi, List.getD]

/-- Not trivial: the maxima of `wrTensor`. -/
example : (maxLabels (8 * 1) 2 wrTensor).All (fun ret => ret[0]? = some 30 ∧ ret[1]? = some 4 ∧ ret[2]? = some 5) := by
  refine (C53_max_labels 2 1 wrTensor true [([0, 1, 2], 1), ([30, 4, 5], 20)] ⟨rfl, by decide, rfl, fun _ => rfl⟩ (by decide)).mono (fun ret h => ?_)
  exact ⟨h.2 0 (by decide), h.2 1 (by decide), h.2 2 (by decide)⟩

/-- `max_labels()` always returns. -/
theorem C53_runs (T ob : Nat) (hT : 0 < T) (t : Tensor W) : (maxLabels (8 * ob) T t).Any :=
  R.Any.bind (R.Any.choose (OmpFor.one t.m T hT)) (fun _ => R.Any.bind (R.Any.lift _) (fun _ => R.Any.lift _))

/-- Loading has executions. -/
theorem C52_runs (P : Params W) [Nonempty W] (μ : Mapping) (fn : List Byte) (ft : FileType) (hft : usedType μ fn 0 ft = .ok .edgeList) : (readTensor P μ fn 0 ft).Any := by
  rw [readTensor_text hft]
  exact R.Any.bind (R.Any.lift _) (fun _ => R.Any.bind R.Any.any (fun _ => R.Any.bind R.Any.any (fun _ => R.Any.bind (R.Any.par _ _ _) (fun _ => R.Any.pure _))))

example := C53_runs 3 8 (by decide) wrTensor
example : (readTensor { T := 2, lb := 4, ob := 8, wk := wUint 32, cw := codecNat 4 (by decide), stor := .shared } ⟨str "1 2 3 9\n", 1⟩
    (str "t.tns") 0 .auto).Any :=
  C52_runs _ _ _ _ (by decide)

end Pigo
