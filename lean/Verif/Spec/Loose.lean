import Verif.Spec.Csr
import Verif.Model.Dispatch

/-!
# Specification: CSR objects whose arrays hold more than their `n` rows

As CSR objects loaded from `.graph` files are.  Independent of the model's functions.
-/

namespace Pigo.Spec

variable {W : Type}

/-- The arrays hold at least `n` rows, in order; `m` endpoints. -/
structure LooseCsr (c : Csr W) : Prop where
  offsets : c.n + 1 ≤ c.offsets.length
  first : off c 0 = 0
  mono : ∀ v, v < c.n → off c v ≤ off c (v + 1)
  last : off c c.n ≤ c.m
  endpoints : c.endpoints.length = c.m

/-- The entries after the last row. -/
def beyond (c : Csr W) : List Nat := c.endpoints.drop (off c c.n)

/-- The entries (v, u) of the first `n` vertices when row `i` belongs to vertex `base + i`. -/
def graphPairs (base : Nat) (rows : List (List Nat)) (n : Nat) : List (Nat × Nat) :=
  (List.range n).flatMap (fun v => (if v < base then [] else rows.getD (v - base) []).map (fun u => (v, u)))

/-- The file is loaded as a `.graph` file: this type is given, or it is guessed from the name. -/
def AsGraph (μ : Mapping) (fn : List Byte) (ft : FileType) : Prop :=
  ft = .graph ∨ ft = .auto ∧ str ".graph" <:+ fn ∧ ¬ str "PIGO" <+: μ.bytes

end Pigo.Spec
