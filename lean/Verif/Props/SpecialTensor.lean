import Verif.Props.Special
import Verif.Props.TensorWeighted

/-!
# Properties: infinities and NaNs in the text files of tensors

C104, continued.  `Tensor::write` prints them like `COO::write`.  The counting pass of `Tensor::read_el_` steps over as many integers as the tensor has
coordinates, beginning inside the first one; the last step ends on the weight, or, if the weight has no digit, on the next line.
-/

namespace Pigo

/-- `(0, 0)` of weight `v`, and `(1, 1)` of weight -2.5. -/
def specialTensor (v : Nat) : Tensor Nat := { c := [0, 0, 1, 1], w := [v, dblTwoHalf], order := 2, m := 2 }

/-- The same entries in the other order. -/
def specialTensorLast (v : Nat) : Tensor Nat := { c := [1, 1, 0, 0], w := [dblTwoHalf, v], order := 2, m := 2 }

/-- The texts that are written. -/
theorem special_tensor_text (T : Nat) (v : Nat) :
    (writeTensor T 8 (wtFloat specialTxt) (specialTensor v)).All (fun bs => bs = str "0 0 " ++ specialTxt v ++ str "\n1 1 -2.500000\n") ∧
    (writeTensor T 8 (wtFloat specialTxt) (specialTensorLast v)).All (fun bs => bs = str "1 1 -2.500000\n0 0 " ++ specialTxt v ++ str "\n") := by
  have s4 : specialTxt dblTwoHalf = str "-2.500000" := by decide +kernel
  have h0 : Spec.showNat 0 = [48] := by decide +kernel
  have h1 : Spec.showNat 1 = [49] := by decide +kernel
  constructor
  · refine (C48_tensor_write T 8 (wtFloat specialTxt) specialTxt (fun _ => True) (.float specialTxt) (specialTensor v) [([0, 0], v), ([1, 1], dblTwoHalf)]
      ⟨rfl, by simp [specialTensor], rfl, fun _ => rfl⟩ (by show 0 < 2; decide) (by show 2 * 2 < 256 ^ 8; decide) (fun _ _ => trivial) (by simp)).mono (fun bs hbs => ?_)
    subst hbs
    simp [Spec.tensorLine, s4, str, wtFloat, h0, h1]
  · refine (C48_tensor_write T 8 (wtFloat specialTxt) specialTxt (fun _ => True) (.float specialTxt) (specialTensorLast v) [([1, 1], dblTwoHalf), ([0, 0], v)]
      ⟨rfl, by simp [specialTensorLast], rfl, fun _ => rfl⟩ (by show 0 < 2; decide) (by show 2 * 2 < 256 ^ 8; decide) (fun _ _ => trivial) (by simp)).mono (fun bs hbs => ?_)
    subst hbs
    simp [Spec.tensorLine, s4, str, wtFloat, h0, h1]

/-- A plan with a store outside of the arrays: no execution gets past it. -/
theorem tensor_plan_oob {W : Type} {μ : Mapping} {lw ow T : Nat} {wk : WKind W} {r : Reader} {p : TPlan W} (hw : wk.wgt = true)
    (h : tensorPlan μ lw ow wk T r = .ok p)
    (hany : (p.threads.flatten.any (fun a => match a with | .setC i _ => decide (inOrd ow (p.order * p.m) ≤ i) | .setW i _ => decide (p.m ≤ i))) = true)
    (out : M (Tensor W)) (hout : (readTensorEl μ lw ow wk T r).Out out) : out = .error .oob := by
  obtain ⟨a, ha, ha'⟩ := List.any_eq_true.mp hany
  unfold readTensorEl at hout
  obtain ⟨_, rfl, h1⟩ := hout
  rw [h] at h1
  obtain ⟨_, ⟨jc, _, rfl⟩, h1⟩ := h1
  obtain ⟨_, ⟨jw, _, rfl⟩, h1⟩ := h1
  obtain ⟨o, ⟨sched, hs, rfl⟩, h1⟩ := h1
  have hmem : a ∈ sched := hs.perm.mem_iff.mpr ha
  have hn : ¬ fitsT (inOrd ow (p.order * p.m)) p.m a := by
    cases a with
    | setC i v => simp only [fitsT]; have := of_decide_eq_true ha'; omega
    | setW i v => simp only [fitsT]; have := of_decide_eq_true ha'; omega
  rw [(runT_fits (mc := inOrd ow (p.order * p.m)) (mw := p.m) sched { c := alloc jc (inOrd ow (p.order * p.m)), w := if wk.wgt then alloc jw p.m else [] }
      (by simp [alloc]) (by simp [alloc, hw])).2 ⟨a, hmem, hn⟩] at h1
  exact h1

/-- **C104 fails** for tensors as well: of two entries of which the first has an infinite or NaN weight one is left, in every execution; its weight
is the first coordinate of the other. -/
theorem C104_tensor_lost_violated (P : Params ℚ) (hwk : P.wk = wFp (doubleOps Stb.rne (fun x => (10 : ℚ) ^ x.num))) (hl : P.lb = 4) (ho : P.ob = 8) (hT : P.T = 1)
    (fn : List Byte) (T : Nat) (v : Nat) (hv : v = dblInf ∨ v = dblNaN) :
    (writeTensor T 8 (wtFloat specialTxt) (specialTensor v)).All (fun bs =>
      (readTensor P ⟨bs, 9⟩ fn 0 .edgeList).All (fun t => t = { c := [0, 0], w := [1], order := 2, m := 1 })) := by
  refine (special_tensor_text T v).1.mono (fun bs hbs => ?_)
  subst hbs
  rw [readTensor_text (show usedType _ fn 0 .edgeList = .ok .edgeList from rfl), hwk, hl, ho, hT]
  have plan : tensorPlan ⟨str "0 0 " ++ specialTxt v ++ str "\n1 1 -2.500000\n", 9⟩ (8 * 4) (8 * 8) (wFp (doubleOps Stb.rne (fun x => (10 : ℚ) ^ x.num))) 1
      (fileReader ⟨str "0 0 " ++ specialTxt v ++ str "\n1 1 -2.500000\n", 9⟩) =
      .ok { order := 2, m := 1, threads := [[.setC 0 0, .setC 1 0, .setW 0 1]] } := by
    rcases hv with rfl | rfl
    · rw [show specialTxt dblInf = str "Inf" by decide +kernel]
      decide +kernel
    · rw [show specialTxt dblNaN = str "NaN" by decide +kernel]
      decide +kernel
  unfold readTensorEl
  rw [plan]
  intro out hout
  obtain ⟨_, rfl, h1⟩ := hout
  obtain ⟨_, ⟨jc, _, rfl⟩, h1⟩ := h1
  obtain ⟨_, ⟨jw, _, rfl⟩, h1⟩ := h1
  obtain ⟨o, ⟨sched, hs, rfl⟩, h1⟩ := h1
  have hsched : sched = [.setC 0 0, .setC 1 0, .setW 0 1] := hs.single
  subst hsched
  cases h1
  exact ⟨_, rfl, rfl⟩

/-- **C104 fails** in a worse way if the last entry has such a weight: its coordinates are stored behind the array, in every execution. -/
theorem C104_tensor_bounds_violated (P : Params ℚ) (hwk : P.wk = wFp (doubleOps Stb.rne (fun x => (10 : ℚ) ^ x.num))) (hl : P.lb = 4) (ho : P.ob = 8) (hT : P.T = 1)
    (fn : List Byte) (T : Nat) (v : Nat) (hv : v = dblInf ∨ v = dblNaN) :
    (writeTensor T 8 (wtFloat specialTxt) (specialTensorLast v)).All (fun bs =>
      (readTensor P ⟨bs, 9⟩ fn 0 .edgeList).Any ∧ ∀ out, (readTensor P ⟨bs, 9⟩ fn 0 .edgeList).Out out → out = .error .oob) := by
  refine (special_tensor_text T v).2.mono (fun bs hbs => ?_)
  subst hbs
  rw [readTensor_text (show usedType _ fn 0 .edgeList = .ok .edgeList from rfl)]
  refine ⟨readTensorEl_exists .., ?_⟩
  rw [hwk, hl, ho, hT]
  intro out
  rcases hv with rfl | rfl
  · rw [show specialTxt dblInf = str "Inf" by decide +kernel]
    exact tensor_plan_oob (W := ℚ) rfl (p := { order := 2, m := 1, threads := [[.setC 0 1, .setC 1 1, .setW 0 (-5/2), .setC 2 0, .setC 3 0, .setW 1 0]] }) (by decide +kernel) (by decide) out
  · rw [show specialTxt dblNaN = str "NaN" by decide +kernel]
    exact tensor_plan_oob (W := ℚ) rfl (p := { order := 2, m := 1, threads := [[.setC 0 1, .setC 1 1, .setW 0 (-5/2), .setC 2 0, .setC 3 0, .setW 1 0]] }) (by decide +kernel) (by decide) out

/-- **C104 fails** for tensors also where it holds for a COO: with a weight of minus infinity, first or last, one entry is counted and two are stored, in every
execution. -/
theorem C104_tensor_signed_violated (P : Params ℚ) (hwk : P.wk = wFp (doubleOps Stb.rne (fun x => (10 : ℚ) ^ x.num))) (hl : P.lb = 4) (ho : P.ob = 8) (hT : P.T = 1)
    (fn : List Byte) (T : Nat) :
    (writeTensor T 8 (wtFloat specialTxt) (specialTensor dblMinusInf)).All (fun bs =>
      (readTensor P ⟨bs, 9⟩ fn 0 .edgeList).Any ∧ ∀ out, (readTensor P ⟨bs, 9⟩ fn 0 .edgeList).Out out → out = .error .oob) ∧
    (writeTensor T 8 (wtFloat specialTxt) (specialTensorLast dblMinusInf)).All (fun bs =>
      (readTensor P ⟨bs, 9⟩ fn 0 .edgeList).Any ∧ ∀ out, (readTensor P ⟨bs, 9⟩ fn 0 .edgeList).Out out → out = .error .oob) := by
  have hs : specialTxt dblMinusInf = str "-Inf" := by decide +kernel
  constructor
  · refine (special_tensor_text T dblMinusInf).1.mono (fun bs hbs => ?_)
    subst hbs
    rw [readTensor_text (show usedType _ fn 0 .edgeList = .ok .edgeList from rfl)]
    refine ⟨readTensorEl_exists .., ?_⟩
    rw [hwk, hl, ho, hT, hs]
    intro out
    exact tensor_plan_oob (W := ℚ) rfl (p := { order := 2, m := 1, threads := [[.setC 0 0, .setC 1 0, .setW 0 0, .setC 2 1, .setC 3 1, .setW 1 (-5/2)]] })
      (by decide +kernel) (by decide) out
  · refine (special_tensor_text T dblMinusInf).2.mono (fun bs hbs => ?_)
    subst hbs
    rw [readTensor_text (show usedType _ fn 0 .edgeList = .ok .edgeList from rfl)]
    refine ⟨readTensorEl_exists .., ?_⟩
    rw [hwk, hl, ho, hT, hs]
    intro out
    exact tensor_plan_oob (W := ℚ) rfl (p := { order := 2, m := 1, threads := [[.setC 0 1, .setC 1 1, .setW 0 (-5/2), .setC 2 0, .setC 3 0, .setW 1 0]] })
      (by decide +kernel) (by decide) out

/-- The tensors hold these entries, and the texts are those of the weights. -/
example : HoldsT (specialTensor dblInf) true [([0, 0], dblInf), ([1, 1], dblTwoHalf)] ∧ HoldsT (specialTensorLast dblNaN) true [([1, 1], dblTwoHalf), ([0, 0], dblNaN)] ∧
    (∀ v ∈ [dblInf, dblNaN, dblTwoHalf], ∃ num buf, Stb.printDouble Stb.rne num buf v = .ok (specialTxt v)) := by
  refine ⟨⟨rfl, by simp [specialTensor], rfl, fun _ => rfl⟩, ⟨rfl, by simp [specialTensorLast], rfl, fun _ => rfl⟩, ?_⟩
  intro v hv
  refine ⟨0, 0, ?_⟩
  simp only [List.mem_cons, List.not_mem_nil, or_false] at hv
  rcases hv with rfl | rfl | rfl
  · rw [show specialTxt dblInf = str "Inf" by decide +kernel]; exact special_ex_text.1
  · rw [show specialTxt dblNaN = str "NaN" by decide +kernel]; exact special_ex_text.2.2
  · rw [show specialTxt dblTwoHalf = str "-2.500000" by decide +kernel]; exact dblTwoHalf_text

end Pigo
