import Verif.Tests.Data
import Verif.Props.Tensor
import Verif.Props.SignedFiles
import Verif.Props.FpDouble

/-!
# The project's tests of Tensor (tests/tensor/test_tensor.cpp)

As `Verif.Tests.Coo`: the `EQ`s of the tests for their own data files, any number of threads, any schedule, any padding.
-/

namespace Pigo.Tests

open Spec (Rounding PowOk)

variable {V : Type}

theorem tensorEntryW_map {X : Type} (parse : List Byte → Option X) (f : X → V) (k : Nat) (l : List Byte) :
    Spec.tensorEntryW (fun t => (parse t).map f) k l = (Spec.tensorEntryW parse k l).map (fun e => (e.1, f e.2)) := by
  unfold Spec.tensorEntryW
  cases Spec.coords k (Spec.words l) with
  | none => rfl
  | some xs =>
    cases (Spec.words l)[k]? with
    | none => rfl
    | some t => cases h : parse t <;> simp [h]

theorem entries_map {E E' : Type} (entry : List Byte → Option E) (f : E → E') (file : List Byte) :
    Spec.entries (fun l => (entry l).map f) file = (Spec.entries entry file).map f := by
  unfold Spec.entries
  rw [List.map_filterMap]
  congr 1
  funext l
  split <;> rfl

/-- A line that ends with spaces after a non-blank is written plainly if its words are. -/
theorem plainLine_spaces {l a : List Byte} {b : Byte} {n : Nat} (h : Spec.stripComment l = a ++ b :: List.replicate n 32) (hb : Spec.isBlank b = false)
    (hn : ∀ t ∈ Spec.words l, Spec.plainNumber t) : Spec.PlainLine l := by
  refine ⟨hn, ?_⟩
  rintro s ⟨u, hu⟩ hbl c hc
  rw [h] at hu
  rcases List.append_eq_append_iff.mp hu with ⟨w, _, h2⟩ | ⟨w, _, h2⟩
  · have : b ∈ s := by rw [h2]; simp
    rw [hbl b this] at hb
    cases hb
  · cases w with
    | nil =>
      have : b ∈ [] ++ s := by rw [← h2]; simp
      rw [hbl b this] at hb
      cases hb
    | cons x w =>
      injection h2 with _ h2
      have : c ∈ List.replicate n (32 : Byte) := by rw [h2]; exact List.mem_append_right _ hc
      rw [(List.mem_replicate.mp this).2]
      decide

/-! ### The data files -/

/-- The coordinates of test.tns and noweight.tns. -/
def tnsCoords : List (List Nat) := [[1, 1, 1, 1], [1, 1, 2, 1], [2, 2, 2, 1], [2, 3, 1, 2], [3, 1, 1, 2]]

/-- The value `read_fp` computes from the text `d.0`. -/
def onePlace (ops : FpOps V) (d : Nat) : V := ops.addFrac (ops.digit ops.zero d) (ops.digit ops.zero 0) 1

/-- The entries of test.tns. -/
def tnsEntries (ops : FpOps V) : List (List Nat × V) :=
  [([1, 1, 1, 1], onePlace ops 1), ([1, 1, 2, 1], onePlace ops 2), ([2, 2, 2, 1], onePlace ops 3), ([2, 3, 1, 2], onePlace ops 4),
    ([3, 1, 1, 2], onePlace ops 5)]

theorem test_lits : Spec.entries (Spec.tensorEntryW Spec.parseLit 4) testTns =
    [([1, 1, 1, 1], ⟨none, str "1", some (str "0"), none⟩), ([1, 1, 2, 1], ⟨none, str "2", some (str "0"), none⟩),
     ([2, 2, 2, 1], ⟨none, str "3", some (str "0"), none⟩), ([2, 3, 1, 2], ⟨none, str "4", some (str "0"), none⟩),
     ([3, 1, 1, 2], ⟨none, str "5", some (str "0"), none⟩)] := by decide +kernel

theorem test_entries (ops : FpOps V) : Spec.entries (Spec.tensorEntryW (fun t => (Spec.parseLit t).map (evalLit ops)) 4) testTns = tnsEntries ops := by
  have e : Spec.tensorEntryW (fun t => (Spec.parseLit t).map (evalLit ops)) 4 =
      fun l => (Spec.tensorEntryW Spec.parseLit 4 l).map (fun e => (e.1, evalLit ops e.2)) := by
    funext l; exact tensorEntryW_map _ _ _ _
  rw [e, entries_map, test_lits]
  rfl

theorem test_plain : Spec.PlainLine (str "1 1 1 1 1.0") :=
  plainLine_spaces (a := str "1 1 1 1 1.") (b := 48) (n := 0) (by decide +kernel) (by decide) (by decide +kernel)

theorem test_ok (ops : FpOps V) : Spec.TensorOk true (Spec.tensorEntryW (fun t => (Spec.parseLit t).map (evalLit ops))) 4 testTns where
  good := by
    have h : ∀ l ∈ Spec.lines testTns, Spec.ints l = [] ∨ (Spec.tensorEntryW Spec.parseLit 4 l).isSome := by decide +kernel
    refine ⟨fun l hl => ?_, by decide +kernel⟩
    rcases h l hl with h | h
    · exact .inl h
    · right
      rw [tensorEntryW_map]
      simpa using h
  first := by
    intro l hl
    have : Spec.firstData testTns = some (str "1 1 1 1 1.0") := by decide +kernel
    rw [this] at hl
    injection hl with hl
    subst hl
    exact ⟨test_plain, by decide +kernel⟩

theorem noweight_entries : Spec.entries (Spec.tensorEntry0 4) noweightTns = tnsCoords.map (fun c => (c, ())) := by decide +kernel

theorem noweight_ok : Spec.TensorOk false Spec.tensorEntry0 4 noweightTns where
  good := ⟨by decide +kernel, by decide +kernel⟩
  first := by
    intro l hl
    have : Spec.firstData noweightTns = some (str "1   1    1 1 # TEST TEST") := by decide +kernel
    rw [this] at hl
    injection hl with hl
    subst hl
    exact ⟨plainLine_spaces (a := str "1   1    1 ") (b := 49) (n := 1) (by decide +kernel) (by decide) (by decide +kernel), by decide +kernel⟩

def ord1Coords : List Nat := [19, 5, 7, 11, 10, 11, 13, 18, 14, 11, 9, 9, 3, 15, 11, 9, 17, 4, 6, 18]

theorem ord1_entries : Spec.entries (Spec.tensorEntry0 1) ord1Tns = ord1Coords.map (fun c => ([c], ())) := by decide +kernel

theorem ord1_ok : Spec.TensorOk false Spec.tensorEntry0 1 ord1Tns where
  good := ⟨by decide +kernel, by decide +kernel⟩
  first := by
    intro l hl
    have : Spec.firstData ord1Tns = some (str "19") := by decide +kernel
    rw [this] at hl
    injection hl with hl
    subst hl
    exact ⟨plainLine_spaces (a := str "1") (b := 57) (n := 0) (by decide +kernel) (by decide) (by decide +kernel), by decide +kernel⟩

/-! ### The tests -/

/-- `Tensor<L, O, …>(fn, EDGE_LIST)`: what it holds. -/
theorem tns {bs : List Byte} {entry : Nat → List Byte → Option (List Nat × V)} {k : Nat} {es : List (List Nat × V)} {wgt : Bool} (hes : Spec.entries (entry k) bs = es)
    {P : Params V} (hw : P.wk.wgt = wgt) {wp : List Nat × V → Prop} (hf : TFormat P.wk entry wp) (hok : Spec.TensorOk wgt entry k bs) (hk : 0 < k)
    (hwp : ∀ en ∈ es, wp en) (hlab : ∀ en ∈ es, ∀ x ∈ en.1, x < 2 ^ 32) (hkw : k + 1 < 2 ^ 32) (hkm : k * es.length < 2 ^ 32) (hne : es ≠ [])
    (hT : 0 < P.T) (hlb : 4 ≤ P.lb) (hob : 4 ≤ P.ob) {pad : Nat} (hpad : 0 < pad) (fn : List Byte) :
    (readTensor P ⟨bs, pad⟩ fn 0 .edgeList).All (fun t => HoldsT t wgt es ∧ t.order = k) := by
  have h1 : 2 ^ 32 ≤ 2 ^ (8 * P.lb) := Nat.pow_le_pow_right (by decide) (by omega)
  have h2 : 2 ^ 32 ≤ 2 ^ (8 * P.ob) := Nat.pow_le_pow_right (by decide) (by omega)
  subst hes hw
  exact (C52_tensor_load P hT ⟨bs, pad⟩ hpad fn .edgeList rfl entry wp hf k hk hok hwp (fun e he x hx => Nat.lt_of_lt_of_le (hlab e he x hx) h1)
    (by omega) (Nat.lt_of_lt_of_le hkm h2)).mono (fun t ht => ⟨ht.1, ht.2 hne⟩)

/-- test.tns, loaded with labels and ordinals of 4 bytes or more. -/
theorem test_load (ops : FpOps V) (P : Params V) (hP : P.wk = wFp ops) (hT : 0 < P.T) (hlb : 4 ≤ P.lb) (hob : 4 ≤ P.ob) (pad : Nat) (hpad : 0 < pad)
    (fn : List Byte) : (readTensor P ⟨testTns, pad⟩ fn 0 .edgeList).All (fun t => HoldsT t true (tnsEntries ops) ∧ t.order = 4) := by
  refine tns (test_entries ops) (by rw [hP]; rfl) (by rw [hP]; exact .float ops) (test_ok ops) (by decide) (fun _ _ => trivial) ?_ (by decide) ?_
    (by simp [tnsEntries]) hT hlb hob hpad fn
  · intro en hen x hx
    have : x ≤ 3 := by
      simp only [tnsEntries, List.mem_cons, List.not_mem_nil, or_false] at hen
      rcases hen with rfl | rfl | rfl | rfl | rfl <;> simp at hx <;> omega
    omega
  · show 4 * 5 < 2 ^ 32
    decide

/-- `read_tensor` (`ops`: the arithmetic of the weights). -/
example (ops : FpOps V) (P : Params V) (hP : P.wk = wFp ops) (hT : 0 < P.T) (hlb : P.lb = 4) (hob : P.ob = 4) (pad : Nat) (hpad : 0 < pad) :
    (readTensor P ⟨testTns, pad⟩ (str "data/test.tns") 0 .edgeList).All (fun t => t.order = 4 ∧ t.m = 5 ∧
      t.c = [1, 1, 1, 1,  1, 1, 2, 1,  2, 2, 2, 1,  2, 3, 1, 2,  3, 1, 1, 2] ∧ t.w = [1, 2, 3, 4, 5].map (onePlace ops)) :=
  (test_load ops P hP hT (by omega) (by omega) pad hpad _).mono (fun _ ht => ⟨ht.2, ht.1.m, ht.1.c, ht.1.w rfl⟩)

/-- In the arithmetic of doubles these are the weights `FEQ` asks for. -/
theorem onePlace_double {rnd pow : ℚ → ℚ} (R : Rounding rnd) (d : Nat) (hd : d ≤ 9) : onePlace (doubleOps rnd pow) d = d := by
  have hz : rnd 0 = 0 := Stb.rnd_exact R Stb.isDouble_zero
  have hn : rnd (d : ℚ) = d := Stb.rnd_exact R (isDouble_nat (by omega))
  simp [onePlace, doubleOps, hz, hn]

/-- `no_weight` and `order_one_no_weight`. -/
example (P : Params Unit) (hP : P.wk = wNone) (hT : 0 < P.T) (hlb : P.lb = 4) (hob : P.ob = 4) (pad : Nat) (hpad : 0 < pad) :
    (readTensor P ⟨noweightTns, pad⟩ (str "data/noweight.tns") 0 .edgeList).All (fun t => t.order = 4 ∧ t.m = 5 ∧
      t.c = [1, 1, 1, 1,  1, 1, 2, 1,  2, 2, 2, 1,  2, 3, 1, 2,  3, 1, 1, 2]) ∧
    (readTensor P ⟨ord1Tns, pad⟩ (str "data/ord1.tns") 0 .edgeList).All (fun t => t.order = 1 ∧ t.m = 20 ∧
      t.c[0]? = some 19 ∧ t.c[19]? = some 18) := by
  refine ⟨(tns noweight_entries (by rw [hP]; rfl) (by rw [hP]; exact .none) noweight_ok (by decide) (fun _ _ => trivial) (by decide) (by decide)
      (by decide) (by decide) hT (by omega) (by omega) hpad _).mono (fun t ht => ⟨ht.2, ht.1.m, ht.1.c⟩),
    (tns ord1_entries (by rw [hP]; rfl) (by rw [hP]; exact .none) ord1_ok (by decide) (fun _ _ => trivial) (by decide) (by decide)
      (by decide) (by decide) hT (by omega) (by omega) hpad _).mono (fun t ht => ⟨ht.2, ht.1.m, ?_⟩)⟩
  rw [ht.1.c]
  exact ⟨rfl, rfl⟩

/-- `max_labs`. -/
example (ops : FpOps V) (P : Params V) (hP : P.wk = wFp ops) (hT : 0 < P.T) (hlb : P.lb = 4) (hob : P.ob = 4) (pad T : Nat) (hpad : 0 < pad) :
    (readTensor P ⟨testTns, pad⟩ (str "data/test.tns") 0 .edgeList).All (fun t => t.m = 5 ∧ t.order = 4 ∧
      (maxLabels (8 * P.ob) T t).All (fun labs => labs = [3, 3, 2, 2])) := by
  refine (test_load ops P hP hT (by omega) (by omega) pad hpad _).mono (fun t ht => ⟨ht.1.m, ht.2, ?_⟩)
  refine (C53_max_labels T P.ob t true _ ht.1 (by rw [ht.2, ht.1.m, hob]; show 4 * 5 < _; decide)).mono (fun labs hl => ?_)
  obtain ⟨h1, h2⟩ := hl
  rw [ht.2] at h1 h2
  refine List.ext_getElem? (fun j => ?_)
  by_cases hj : j < 4
  · rw [h2 j hj]
    match j, hj with
    | 0, _ => rfl
    | 1, _ => rfl
    | 2, _ => rfl
    | 3, _ => rfl
  · rw [List.getElem?_eq_none (by omega), List.getElem?_eq_none (by simp; omega)]

/-- The text `sprintf`-like printing gives for the weights of test.tns. -/
def Prints (txt : ℚ → List Byte) : Prop :=
  txt 1 = str "1.000000" ∧ txt 2 = str "2.000000" ∧ txt 3 = str "3.000000" ∧ txt 4 = str "4.000000" ∧ txt 5 = str "5.000000"

theorem test_double {rnd pow : ℚ → ℚ} (R : Rounding rnd) : tnsEntries (doubleOps rnd pow) =
    [([1, 1, 1, 1], 1), ([1, 1, 2, 1], 2), ([2, 2, 2, 1], 3), ([2, 3, 1, 2], 4), ([3, 1, 1, 2], 5)] := by
  unfold tnsEntries
  rw [onePlace_double R 1 (by decide), onePlace_double R 2 (by decide), onePlace_double R 3 (by decide), onePlace_double R 4 (by decide),
    onePlace_double R 5 (by decide)]
  norm_num

/-- The text `d.000000` is read as `d`. -/
theorem eval_six {rnd pow : ℚ → ℚ} (R : Rounding rnd) (d : Nat) (hd : d ≤ 9) (t : List Byte) (b : Byte) (hb : digitVal b = d)
    (h : Spec.parseLit t = some ⟨none, [b], some (str "000000"), none⟩) : (Spec.parseLit t).map (evalLit (doubleOps rnd pow)) = some (d : ℚ) := by
  have hz : rnd 0 = 0 := Stb.rnd_exact R Stb.isDouble_zero
  have hn : rnd (d : ℚ) = d := Stb.rnd_exact R (isDouble_nat (by omega))
  have hs : fpDigits (doubleOps rnd pow) (str "000000") = 0 := by
    have : str "000000" = [48, 48, 48, 48, 48, 48] := by decide
    rw [this]
    have hv : digitVal 48 = 0 := by decide
    simp [fpDigits, doubleOps, hz, hv]
  rw [h]
  simp only [Option.map_some, evalLit, evalExp, evalFrac, Spec.Sign.neg, hs, Option.some.injEq]
  simp [fpDigits, doubleOps, hz, hb, hn]

/-- `write_tensor`: test.tns is loaded, written, and loaded again by another instance. -/
example {rnd pow : ℚ → ℚ} (R : Rounding rnd) (txt : ℚ → List Byte) (htxt : Prints txt) (P P' : Params ℚ) (hP : P.wk = wFp (doubleOps rnd pow))
    (hP' : P'.wk = wFp (doubleOps rnd pow)) (hT : 0 < P.T) (hT' : 0 < P'.T) (hb : P.lb = 4 ∧ P.ob = 4) (hb' : P'.lb = 8 ∧ P'.ob = 8)
    (pad pad' : Nat) (hpad : 0 < pad) (hpad' : 0 < pad') (T : Nat) :
    (readTensor P ⟨testTns, pad⟩ (str "data/test.tns") 0 .edgeList).All (fun r =>
      (writeTensor T P.ob (wtFloat txt) r).All (fun out => (readTensor P' ⟨out, pad'⟩ (str ".test.out.ascii") 0 .edgeList).All (fun r2 =>
        r2.order = r.order ∧ r2.m = r.m ∧ r2.c = r.c ∧ r2.w = r.w))) := by
  refine (test_load (doubleOps rnd pow) P hP hT (by omega) (by omega) pad hpad _).mono (fun r hr => ?_)
  obtain ⟨hh, ho⟩ := hr
  rw [test_double R] at hh
  obtain ⟨h1, h2, h3, h4, h5⟩ := htxt
  have hw : ∀ e ∈ ([([1, 1, 1, 1], 1), ([1, 1, 2, 1], 2), ([2, 2, 2, 1], 3), ([2, 3, 1, 2], 4), ([3, 1, 1, 2], 5)] : List (List Nat × ℚ)),
      Word (txt e.2) ∧ Spec.plainNumber (txt e.2) ∧ (Spec.parseLit (txt e.2)).map (evalLit (doubleOps rnd pow)) = some e.2 := by
    intro e he
    simp only [List.mem_cons, List.not_mem_nil, or_false] at he
    rcases he with rfl | rfl | rfl | rfl | rfl
    · simp only [h1]; exact ⟨⟨by decide, by decide⟩, by decide, by simpa using eval_six R 1 (by decide) _ 49 (by decide) (by decide)⟩
    · simp only [h2]; exact ⟨⟨by decide, by decide⟩, by decide, by simpa using eval_six R 2 (by decide) _ 50 (by decide) (by decide)⟩
    · simp only [h3]; exact ⟨⟨by decide, by decide⟩, by decide, by simpa using eval_six R 3 (by decide) _ 51 (by decide) (by decide)⟩
    · simp only [h4]; exact ⟨⟨by decide, by decide⟩, by decide, by simpa using eval_six R 4 (by decide) _ 52 (by decide) (by decide)⟩
    · simp only [h5]; exact ⟨⟨by decide, by decide⟩, by decide, by simpa using eval_six R 5 (by decide) _ 53 (by decide) (by decide)⟩
  have hlab : ∀ e ∈ ([([1, 1, 1, 1], 1), ([1, 1, 2, 1], 2), ([2, 2, 2, 1], 3), ([2, 3, 1, 2], 4), ([3, 1, 1, 2], 5)] : List (List Nat × ℚ)),
      ∀ x ∈ e.1, x < 2 ^ 32 := by
    intro e he x hx
    simp only [List.mem_cons, List.not_mem_nil, or_false] at he
    have : x ≤ 3 := by rcases he with rfl | rfl | rfl | rfl | rfl <;> simp at hx <;> omega
    omega
  refine (C48_tensor_write T P.ob (wtFloat txt) txt _ (.float txt) r _ hh (by omega) (by rw [ho, hh.m, hb.2]; show 4 * 5 < _; decide) (fun _ _ => trivial) (by simp)).mono
    (fun bs hbs => ?_)
  subst hbs
  obtain ⟨g1, g2⟩ := tensorText_ok (wgt := true) (txt := txt) (by omega : 0 < r.order) hh.order (fun e he _ => ⟨(hw e he).1, (hw e he).2.1⟩)
    (entry := Spec.tensorEntryW (fun t => (Spec.parseLit t).map (evalLit (doubleOps rnd pow))))
    (fun e he => by rw [← hh.order e he]; exact tensorEntryW_words e (hw e he).1 (hw e he).2.2)
  refine (tns g2 (by rw [hP']; rfl) (by rw [hP']; exact .float _) g1 (by omega) (fun _ _ => trivial) hlab (by rw [ho]; decide) (by rw [ho]; show 4 * 5 < _; decide)
    (by simp) hT' (by omega) (by omega) hpad' _).mono (fun r2 hr2 => ?_)
  exact ⟨hr2.2, by rw [hr2.1.m, hh.m], by rw [hr2.1.c, hh.c], by rw [hr2.1.w rfl, hh.w rfl]⟩

/-- `write_bin`: the size of the saved file, its rejection by an instance with other types, and loading it again. -/
example (ops : FpOps V) (P : Params V) (hP : P.wk = wFp ops) (hT : 0 < P.T) (hlb : P.lb = 4) (hob : P.ob = 4) (cw : Codec V) (hsz : cw.size = 4)
    (hcw : ∀ v, cw.ok v) (pad pad' : Nat) (hpad : 0 < pad) (T T' : Nat) (hTs : 0 < T) (hT' : 0 < T') {X : Type} (cx : Codec X) :
    (readTensor P ⟨testTns, pad⟩ (str "data/test.tns") 0 .edgeList).All (fun r =>
      (saveTensor T 4 4 true cw r).All (fun out =>
        out.length = (str "PIGO-Tensor-2").length + 1 * 3 + 4 * 2 + (4 * r.order + 4) * r.m ∧
        (readBinTensor T' 8 8 true cx ⟨out, pad'⟩ 0).Throws) ∧
      (saveTensor T 4 4 true cw r >>= fun out => readBinTensor T' 4 4 true cw ⟨out, pad'⟩ 0).All (fun r2 => r2 = r)) := by
  refine (test_load ops P hP hT (by omega) (by omega) pad hpad _).mono (fun r hr => ?_)
  obtain ⟨hh, ho⟩ := hr
  have hm : r.m = 5 := hh.m
  have hfit : Spec.FitsTensor 4 4 true cw r := by
    refine ⟨⟨by rw [hh.c, ho, hm]; rfl, ?_⟩, ⟨by rw [hh.w rfl, hm]; rfl, fun v _ => hcw v⟩, by rw [ho]; decide, by rw [hm]; decide,
      .inr (by rw [ho, hm]; decide)⟩
    rw [hh.c]
    show ∀ v ∈ [1, 1, 1, 1,  1, 1, 2, 1,  2, 2, 2, 1,  2, 3, 1, 2,  3, 1, 1, 2], v < 256 ^ 4
    decide
  refine ⟨(C41_tensor T 4 4 hTs true cw r hfit).mono (fun out ⟨h1, h2⟩ => ⟨?_, ?_⟩),
    C40_tensor_roundtrip T T' 4 4 hTs hT' (by decide) (by decide) true cw (by rw [hsz]; decide) r hfit pad'⟩
  · rw [h2, tensorSaveSize, ho, hm]
    show tensorMagic.length + 2 + 1 + 2 * 4 + 4 * 5 * 4 + weightSize true cw 5 = _
    simp only [weightSize, hsz]
    decide
  · refine (C42_sizes T' 8 8 true cx ⟨out, pad'⟩ 4 4 (out.drop 15) (.inl (by decide))).2.2 ?_
    subst h1
    rfl

end Pigo.Tests
