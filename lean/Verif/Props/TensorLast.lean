import Verif.Props.TensorText
import Verif.Lemmas.LastWeight
import Verif.Props.Fp

/-!
# A tensor file with weights of any kind whose last line lacks its newline (C86)
-/

namespace Pigo

variable {W : Type}

/-- C86, weights of any kind: a complete last line without newline is an entry like any other. -/
theorem C86_last_line (P : Params W) (hT : 0 < P.T) (μ : Mapping) (hpad : 0 < μ.pad) (fn : List Byte)
    (entry : Nat → List Byte → Option (List Nat × W)) (wp : List Nat × W → Prop) (hf : TFormat P.wk entry wp) (hwg : P.wk.wgt = true)
    (k : Nat) (hk : 0 < k) (G τ : List Byte) (hn : nl ∉ τ) (xs : List Nat) (w : W) (hτ : entry k τ = some (xs, w))
    (hμ : μ.bytes = (G ++ [nl]) ++ τ) (hok : Spec.TensorOk true entry k (G ++ [nl]))
    (hne : Spec.entries (entry k) (G ++ [nl]) ≠ [])
    (hwp : ∀ en ∈ Spec.entries (entry k) (G ++ [nl]) ++ [(xs, w)], wp en ∧ ∀ x ∈ en.1, x < 2 ^ (8 * P.lb))
    (hkw : k + 1 < 2 ^ (8 * P.ob)) (hkm : k * ((Spec.entries (entry k) (G ++ [nl])).length + 1) < 2 ^ (8 * P.ob)) :
    (readTensor P μ fn 0 .edgeList).All (fun t => HoldsT t true (Spec.entries (entry k) (G ++ [nl]) ++ [(xs, w)]) ∧ t.order = k) := by
  have hwl := (hwp (xs, w) (by simp)).1
  obtain ⟨⟨_, hx, tail, htc, htw, htf⟩, hlen⟩ := hf.law (8 * P.lb) hk hn hτ hwl
  have htl := htf hwg
  have hint : Spec.ints τ ≠ [] := by
    intro h
    rw [← firstIntL_nil_iff τ hn] at h
    obtain ⟨x, xs', hxs⟩ := List.exists_cons_of_ne_nil hx
    simp only at hxs htc
    rw [hxs] at htc
    exact htc.1 h
  have hent : entOfT (entry k) τ = some (xs, w) := by unfold entOfT; rw [if_neg hint, hτ]
  have he : Spec.entries (entry k) ((G ++ [nl]) ++ τ) = Spec.entries (entry k) (G ++ [nl]) ++ [(xs, w)] := by
    rw [entries_cut _ rfl hn, if_neg hint, hτ]; rfl
  have hr : Readable μ μ.bytes.length := by unfold Readable; omega
  have v : View μ μ.bytes.length τ := (View.full μ).of_suffix (by rw [hμ]; exact List.suffix_append _ _)
  have hsuf := htc.suffix
  have hwe : WEnd P.wk μ μ.bytes.length tail w :=
    hf.wend hwg htw (fun h => hn (hsuf.subset h)) (htc.stop hx) htl (endB_file hpad) (v.of_suffix hsuf)
  obtain ⟨hc, hs⟩ := full_tail (en := (xs, w)) hwg hr v hn hx hlen htc htl hwe hent
  rw [readTensor_text (show usedType μ fn 0 .edgeList = .ok .edgeList from rfl)]
  have := readTensorEl_cut (ow := 8 * P.ob) hpad hf hk rfl hn hμ (by rw [hwg]; exact hok) hne (by rw [he]; exact fun en h => (hwp en h).1)
    (by rw [he]; exact fun en h => (hwp en h).2) hT hkw (by rw [he, List.length_append]; exact hkm) hc hs
  rwa [he, hwg] at this

/-- C86, signed weights: the last line may carry a sign. -/
theorem C86_signed_last_line (P : Params Int) (ww : Nat) (hwk : P.wk = wSint ww) (hT : 0 < P.T) (μ : Mapping) (hpad : 0 < μ.pad) (fn : List Byte)
    (k : Nat) (hk : 0 < k) (G τ : List Byte) (hn : nl ∉ τ) (xs : List Nat) (w : Int) (hτ : Spec.tensorEntryW Spec.parseSigned k τ = some (xs, w))
    (hμ : μ.bytes = (G ++ [nl]) ++ τ) (hok : Spec.TensorOk true (Spec.tensorEntryW Spec.parseSigned) k (G ++ [nl]))
    (hne : Spec.entries (Spec.tensorEntryW Spec.parseSigned k) (G ++ [nl]) ≠ [])
    (hwp : ∀ en ∈ Spec.entries (Spec.tensorEntryW Spec.parseSigned k) (G ++ [nl]) ++ [(xs, w)], en.2.natAbs < 2 ^ (ww - 1) ∧ ∀ x ∈ en.1, x < 2 ^ (8 * P.lb))
    (hkw : k + 1 < 2 ^ (8 * P.ob)) (hkm : k * ((Spec.entries (Spec.tensorEntryW Spec.parseSigned k) (G ++ [nl])).length + 1) < 2 ^ (8 * P.ob)) :
    (readTensor P μ fn 0 .edgeList).All (fun t => HoldsT t true (Spec.entries (Spec.tensorEntryW Spec.parseSigned k) (G ++ [nl]) ++ [(xs, w)]) ∧ t.order = k) :=
  C86_last_line P hT μ hpad fn _ (fun e => e.2.natAbs < 2 ^ (ww - 1)) (by rw [hwk]; exact .sint ww) (by rw [hwk]; rfl) k hk G τ hn xs w hτ hμ hok hne hwp hkw hkm

/-- C86, floating point weights: the last line carries any literal. -/
theorem C86_float_last_line {V : Type} (ops : FpOps V) (P : Params V) (hwk : P.wk = wFp ops) (hT : 0 < P.T) (μ : Mapping) (hpad : 0 < μ.pad) (fn : List Byte)
    (k : Nat) (hk : 0 < k) (G τ : List Byte) (hn : nl ∉ τ) (xs : List Nat) (w : V)
    (hτ : Spec.tensorEntryW (fun t => (Spec.parseLit t).map (evalLit ops)) k τ = some (xs, w))
    (hμ : μ.bytes = (G ++ [nl]) ++ τ) (hok : Spec.TensorOk true (Spec.tensorEntryW (fun t => (Spec.parseLit t).map (evalLit ops))) k (G ++ [nl]))
    (hne : Spec.entries (Spec.tensorEntryW (fun t => (Spec.parseLit t).map (evalLit ops)) k) (G ++ [nl]) ≠ [])
    (hwp : ∀ en ∈ Spec.entries (Spec.tensorEntryW (fun t => (Spec.parseLit t).map (evalLit ops)) k) (G ++ [nl]) ++ [(xs, w)], ∀ x ∈ en.1, x < 2 ^ (8 * P.lb))
    (hkw : k + 1 < 2 ^ (8 * P.ob))
    (hkm : k * ((Spec.entries (Spec.tensorEntryW (fun t => (Spec.parseLit t).map (evalLit ops)) k) (G ++ [nl])).length + 1) < 2 ^ (8 * P.ob)) :
    (readTensor P μ fn 0 .edgeList).All
      (fun t => HoldsT t true (Spec.entries (Spec.tensorEntryW (fun t => (Spec.parseLit t).map (evalLit ops)) k) (G ++ [nl]) ++ [(xs, w)]) ∧ t.order = k) :=
  C86_last_line P hT μ hpad fn _ (fun _ => True) (by rw [hwk]; exact .float ops) (by rw [hwk]; rfl) k hk G τ hn xs w hτ hμ hok hne
    (fun en h => ⟨trivial, hwp en h⟩) hkw hkm

/-- Signed weights: the last weight is `-12`. -/
example (P : Params Int) (hwk : P.wk = wSint 8) (hl : P.lb = 1) (ho : P.ob = 1) (hT : 0 < P.T) (fn : List Byte) :
    (readTensor P ⟨(str "0 1 9" ++ [nl]) ++ str "3 4 -12", 9⟩ fn 0 .edgeList).All (fun t => t.c = [0, 1, 3, 4] ∧ t.w = [9, -12] ∧ t.order = 2) := by
  have he : Spec.entries (Spec.tensorEntryW Spec.parseSigned 2) (str "0 1 9" ++ [nl]) = [([0, 1], 9)] := by decide
  have hok : Spec.TensorOk true (Spec.tensorEntryW Spec.parseSigned) 2 (str "0 1 9" ++ [nl]) := by
    refine ⟨⟨by decide, by decide⟩, ?_⟩
    intro l hl
    have : Spec.firstData (str "0 1 9" ++ [nl]) = some (str "0 1 9") := by decide
    rw [this] at hl
    injection hl with hl
    subst hl
    exact ⟨plainLine_of (a := str "0 1 ") (b := 57) (by decide) (by decide) (by decide), by decide⟩
  refine (C86_signed_last_line P 8 hwk hT _ (by decide) fn 2 (by decide) (str "0 1 9") (str "3 4 -12") (by decide) [3, 4] (-12) (by decide) rfl hok
    (by rw [he]; decide) (by rw [he, hl]; decide) (by rw [ho]; decide) (by rw [he, ho]; decide)).mono (fun t ht => ?_)
  rw [he] at ht
  exact ⟨ht.1.c, ht.1.w rfl, ht.2⟩

/-- Floating point weights in exact rational arithmetic, the last one with a sign and an exponent. -/
example (P : Params Rat) (hwk : P.wk = wFp exactOps) (hl : P.lb = 1) (ho : P.ob = 1) (hT : 0 < P.T) (fn : List Byte) :
    (readTensor P ⟨(str "0 1 9" ++ [nl]) ++ str "3 4 -25e1", 9⟩ fn 0 .edgeList).All (fun t => t.c = [0, 1, 3, 4] ∧ t.w = [9, -250] ∧ t.order = 2) := by
  have he : Spec.entries (Spec.tensorEntryW (fun t => (Spec.parseLit t).map (evalLit exactOps)) 2) (str "0 1 9" ++ [nl]) = [([0, 1], 9)] := by decide +kernel
  have hok : Spec.TensorOk true (Spec.tensorEntryW (fun t => (Spec.parseLit t).map (evalLit exactOps))) 2 (str "0 1 9" ++ [nl]) := by
    refine ⟨⟨by decide, by decide⟩, ?_⟩
    intro l hl
    have : Spec.firstData (str "0 1 9" ++ [nl]) = some (str "0 1 9") := by decide
    rw [this] at hl
    injection hl with hl
    subst hl
    exact ⟨plainLine_of (a := str "0 1 ") (b := 57) (by decide) (by decide) (by decide), by decide⟩
  refine (C86_float_last_line exactOps P hwk hT _ (by decide) fn 2 (by decide) (str "0 1 9") (str "3 4 -25e1") (by decide) [3, 4] (-250) (by decide +kernel) rfl hok
    (by rw [he]; decide) (by rw [he, hl]; decide +kernel) (by rw [ho]; decide) (by rw [he, ho]; decide)).mono (fun t ht => ?_)
  rw [he] at ht
  exact ⟨ht.1.c, ht.1.w rfl, ht.2⟩

end Pigo
