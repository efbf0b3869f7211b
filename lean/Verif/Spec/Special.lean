import Verif.Spec.Stb

/-!
# Specification: infinities and NaNs in text files
-/

namespace Pigo.Spec

/-- Positive infinity or a NaN without sign bit: printed as `Inf` or `NaN`, without any sign. -/
def UnsignedSpecial (v : Nat) : Prop := ¬ IsFinite v ∧ v.testBit 63 = false

instance (v : Nat) : Decidable (UnsignedSpecial v) := by unfold UnsignedSpecial IsFinite; infer_instance

/-- What one thread reads from the lines of `(x, y, v)`, `v` being the bit pattern of a double.  A line that ends in `Inf` or `NaN`
has the first label of the next line as its weight, and the next line is gone; if there is no next line, the
line itself is.  All other weights are what `q` says. -/
def reread (q : Nat → ℚ) : List (Nat × Nat × Nat) → List (Nat × Nat × ℚ)
  | [] => []
  | [(x, y, v)] => if UnsignedSpecial v then [] else [(x, y, q v)]
  | (x, y, v) :: (x', y', v') :: es =>
    if UnsignedSpecial v then (x, y, (x' : ℚ)) :: reread q es else (x, y, q v) :: reread q ((x', y', v') :: es)

/-- The arrays after the threads have read their blocks of lines: the entries each has read, then slots without any. -/
def slots {E F : Type} (read : List E → List F) (blocks : List (List E)) : List (Option F) :=
  blocks.flatMap (fun b => (read b).map some ++ List.replicate (b.length - (read b).length) none)

end Pigo.Spec
