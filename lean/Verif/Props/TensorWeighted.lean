import Verif.Lemmas.TensorSafe
import Verif.Props.TensorText

/-!
# Properties: tensors with weights out of arbitrary text

C86, continued.
-/

namespace Pigo

variable {W : Type}

/-- All executions of a load of a tensor with weights end alike: all of them overflow a signed weight (only if `over`), all of them
access memory outside of the arrays, or all return a tensor of the same order `k` and the same number `m` of entries, with arrays of `k * m`
coordinates and `m` weights, no more than there are bytes in the file. -/
def SameEndT (over : Prop) (bound : Nat) (run : R (Tensor W)) : Prop :=
  run.Any ∧
  ((over ∧ ∀ out, run.Out out → out = .error .overflow) ∨ (∀ out, run.Out out → out = .error .oob) ∨
   ∃ k m, m ≤ bound ∧ m * k ≤ bound ∧ run.All (fun t => t.order = k ∧ t.m = m ∧ t.c.length = k * m ∧ t.w.length = m))

/-- **C86**, partial: any bytes loaded as a tensor with unsigned, signed or floating point weights (whatever the arithmetic of the latter):
nothing outside of the file is read, every execution ends, and they all end alike.  Missing: the absence of stores outside of the
arrays, which fails (below). -/
theorem C86_any_weights_partial (page : Nat) (hp : 0 < page) (file : List Byte) (hd : ¬ page ∣ file.length) (fn : List Byte) :
    (∀ (P : Params Nat) (ww : Nat), P.wk = wUint ww → 0 < P.T → file.length + 1 < 2 ^ (8 * P.ob) → SameEndT False file.length (readTensor P (mapFile page file) fn 0 .edgeList)) ∧
    (∀ (P : Params Int) (ww : Nat), P.wk = wSint ww → 0 < P.T → file.length + 1 < 2 ^ (8 * P.ob) → SameEndT True file.length (readTensor P (mapFile page file) fn 0 .edgeList)) ∧
    ∀ (V : Type) (P : Params V) (ops : FpOps V), P.wk = wFp ops → 0 < P.T → file.length + 1 < 2 ^ (8 * P.ob) →
      SameEndT False file.length (readTensor P (mapFile page file) fn 0 .edgeList) := by
  have hpad : 0 < (mapFile page file).pad := (mapFile_pad hp).mpr hd
  have hbytes : (mapFile page file).bytes = file := rfl
  generalize mapFile page file = μ at hpad hbytes ⊢
  subst hbytes
  have key : ∀ {ov : Prop} {V : Type} [Nonempty V] (P : Params V), P.wk.wgt = true → (∀ e, EndB μ e → SafeW ov P.wk μ e) → 0 < P.T →
      μ.bytes.length + 1 < 2 ^ (8 * P.ob) → SameEndT ov μ.bytes.length (readTensor P μ fn 0 .edgeList) := by
    intro ov V _ P hwgt hw hT hm
    rw [readTensor_text (show usedType μ fn 0 .edgeList = .ok .edgeList from rfl)]
    refine ⟨readTensorEl_exists .., ?_⟩
    have he : EndB μ μ.bytes.length := ⟨0, by simp [Mapping.get, hpad], .inr rfl⟩
    have hrd : fileReader μ = rd μ.bytes.length μ.bytes := by simp [fileReader, rd]
    obtain ⟨k, ho, _, _⟩ := tensorOrder_any hpad hm true
    rw [hrd] at ho ⊢
    rcases readTensorEl_uniform (lw := 8 * P.lb) hwgt hw (View.full μ) he hT ho (by omega) with h | h | ⟨m, h⟩
    · exact .inl h
    · exact .inr (.inl h)
    · exact .inr (.inr ⟨k, m, h⟩)
  refine ⟨fun P ww hwk hT hm => ?_, fun P ww hwk hT hm => ?_, fun V P ops hwk hT hm => ?_⟩
  · exact key P (by rw [hwk]; rfl) (fun e he => by rw [hwk]; exact safe_uint he.readable ww) hT hm
  · exact key P (by rw [hwk]; rfl) (fun e he => by rw [hwk]; exact safe_sint he ww) hT hm
  · haveI : Nonempty V := ⟨ops.zero⟩
    exact key P (by rw [hwk]; rfl) (fun e he => by rw [hwk]; exact safe_fp he) hT hm

/-- A text of no meaning. -/
example (fn : List Byte) : (readTensor binParams (mapFile 4096 (str "1 -2 3\n\n4 # 5\n6e7 .8\n9")) fn 0 .edgeList).Any :=
  ((C86_any_weights_partial 4096 (by decide) (str "1 -2 3\n\n4 # 5\n6e7 .8\n9") (by decide) fn).1 binParams 8 rfl (by decide) (by decide)).1

/-- **C86 fails** with weights as well: a last line that lacks its weight, with or without its newline, is stored behind the arrays. -/
theorem C86_weight_missing_violated :
    (∀ out, (readTensorEl ⟨str "0 1 9\n3 4", 9⟩ 32 64 (wUint 8) 1 (fileReader ⟨str "0 1 9\n3 4", 9⟩)).Out out → out = .error .oob) ∧
    (∀ out, (readTensorEl ⟨str "0 1 9\n3 4\n", 9⟩ 32 64 (wUint 8) 1 (fileReader ⟨str "0 1 9\n3 4\n", 9⟩)).Out out → out = .error .oob) := by
  have key : ∀ (μ : Mapping) (p : TPlan Nat), tensorPlan μ 32 64 (wUint 8) 1 (fileReader μ) = .ok p →
      (p.threads.flatten.any (fun a => match a with | .setC i _ => decide (inOrd 64 (p.order * p.m) ≤ i) | .setW i _ => decide (p.m ≤ i))) = true →
      ∀ out, (readTensorEl μ 32 64 (wUint 8) 1 (fileReader μ)).Out out → out = .error .oob := by
    intro μ p h hany out
    obtain ⟨a, ha, ha'⟩ := List.any_eq_true.mp hany
    unfold readTensorEl
    rintro ⟨_, rfl, h1⟩
    rw [h] at h1
    obtain ⟨_, ⟨jc, _, rfl⟩, h1⟩ := h1
    obtain ⟨_, ⟨jw, _, rfl⟩, h1⟩ := h1
    obtain ⟨o, ⟨sched, hs, rfl⟩, h1⟩ := h1
    have hmem : a ∈ sched := hs.perm.mem_iff.mpr ha
    have hn : ¬ fitsT (inOrd 64 (p.order * p.m)) p.m a := by
      cases a with
      | setC i v => simp only [fitsT]; have := of_decide_eq_true ha'; omega
      | setW i v => simp only [fitsT]; have := of_decide_eq_true ha'; omega
    rw [(runT_fits (mc := inOrd 64 (p.order * p.m)) (mw := p.m) sched { c := alloc jc (inOrd 64 (p.order * p.m)), w := if (wUint 8).wgt then alloc jw p.m else [] }
        (by simp [alloc]) (by simp [alloc, wUint])).2 ⟨a, hmem, hn⟩] at h1
    exact h1
  constructor
  · exact key _ { order := 2, m := 1, threads := [[.setC 0 0, .setC 1 1, .setW 0 9, .setC 2 3]] } (by decide) (by decide)
  · exact key _ { order := 2, m := 1, threads := [[.setC 0 0, .setC 1 1, .setW 0 9, .setC 2 3, .setC 3 4, .setW 1 0]] } (by decide) (by decide)

end Pigo
