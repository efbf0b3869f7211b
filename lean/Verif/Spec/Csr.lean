import Verif.Model.Csr

/-!
# What a CSR means

Independent vocabulary for the CSR properties: valid arrays, rows.
-/

namespace Pigo

variable {W : Type}

/-- The arrays of `c` hold exactly the entries `es`, in this order. -/
structure Holds (c : Coo W) (wgt : Bool) (es : List (Nat × Nat × W)) : Prop where
  m : c.m = es.length
  x : c.x = es.map (fun e => e.1)
  y : c.y = es.map (fun e => e.2.1)
  w : wgt = true → c.w = es.map (fun e => e.2.2)

namespace Spec

/-- `offsets[v]` -/
def off (c : Csr W) (v : Nat) : Nat := c.offsets.getD v 0

/-- Valid CSR arrays: the offsets start at 0, do not decrease, end at `m`; `m` endpoints (and weights). -/
structure ValidCsr (c : Csr W) (wgt : Bool) : Prop where
  offsets : c.offsets.length = c.n + 1
  first : off c 0 = 0
  mono : ∀ v, v < c.n → off c v ≤ off c (v + 1)
  last : off c c.n = c.m
  endpoints : c.endpoints.length = c.m
  weights : wgt = true → c.weights.length = c.m

/-- There is room for the number of offsets, `n + 1`, in the type in which C++ computes it: the label type of `lw` bits, or
`int` for the narrower types. -/
def OffsetsFit (lw n : Nat) : Prop := lw < 32 ∨ n + 1 < 2 ^ lw

/-- The endpoints of row `v`: those at `offsets[v] ≤ i < offsets[v+1]`. -/
def row (c : Csr W) (v : Nat) : List Nat := (c.endpoints.drop (off c v)).take (off c (v + 1) - off c v)

/-- The weights of row `v`. -/
def rowWeights (c : Csr W) (v : Nat) : List W := (c.weights.drop (off c v)).take (off c (v + 1) - off c v)

end Spec
end Pigo

namespace Pigo.Spec

variable {W : Type}

/-- The entries (row, endpoint) of a CSR, row by row. -/
def pairs (c : Csr W) : List (Nat × Nat) := (List.range c.n).flatMap (fun v => (row c v).map (fun u => (v, u)))

/-- The entries (row, endpoint, weight) of a weighted CSR, row by row. -/
def triples (c : Csr W) : List (Nat × Nat × W) :=
  (List.range c.n).flatMap (fun v => ((row c v).zip (rowWeights c v)).map (fun p => (v, p.1, p.2)))

/-- `wlt` is a strict weak order: what `std::sort` requires of `operator<`. -/
structure StrictWeak {α : Type} (lt : α → α → Prop) : Prop where
  irrefl : ∀ a, ¬ lt a a
  trans : ∀ a b c, lt a b → lt b c → lt a c
  incomp : ∀ a b c, ¬ lt a b → ¬ lt b c → ¬ lt a c

end Pigo.Spec
