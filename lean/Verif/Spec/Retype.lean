import Verif.Spec.RowsOf

/-!
# Specification: the same graph in other types
-/

namespace Pigo.Spec

variable {W V : Type}

/-- The same entries, every weight converted by `conv`. -/
def reweighted (conv : W → V) (es : List (Nat × Nat × W)) : List (Nat × Nat × V) := es.map (fun e => (e.1, e.2.1, conv e.2.2))

/-- What is left of the entries if labels keep `lw` bits only and the count of entries `ow` bits only: the first
`length mod 2^ow` entries, with their labels modulo `2^lw`. -/
def truncated (lw ow : Nat) (conv : W → V) (es : List (Nat × Nat × W)) : List (Nat × Nat × V) :=
  (es.take (es.length % 2 ^ ow)).map (fun e => (e.1 % 2 ^ lw, e.2.1 % 2 ^ lw, conv e.2.2))

/-- The numbers of vertices, rows, columns and entries and the labels are values of types of `lw` and `ow` bits, with room for
`n + 1` offsets. -/
structure Fits (lw ow n nr nc : Nat) (es : List (Nat × Nat × W)) : Prop where
  rows : ∀ e ∈ es, e.1 < n
  cols : ∀ e ∈ es, e.2.1 < 2 ^ lw
  offsets : OffsetsFit lw n
  n : n < 2 ^ lw
  nrows : nr < 2 ^ lw
  ncols : nc < 2 ^ lw
  m : es.length < 2 ^ ow

/-- The CSR has fewer than `2^ow` different entries. -/
def FewEntries (ow : Nat) (c : Csr W) : Prop := ∀ l : List (Nat × Nat), l.Nodup → (∀ e ∈ l, e ∈ pairs c) → l.length < 2 ^ ow

end Pigo.Spec
