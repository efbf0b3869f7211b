import Verif.Spec.Session

/-!
# Specification: sorted results of programs
-/

namespace Pigo.Session.Spec

variable {W : Type}

/-- In order of the source, then of the endpoint, then of the weight (if there are weights). -/
def InOrder (wlt : W → W → Prop) (e f : Nat × Nat × Option W) : Prop :=
  e.1 < f.1 ∨ (e.1 = f.1 ∧ (e.2.1 < f.2.1 ∨ (e.2.1 = f.2.1 ∧ ∀ w w', e.2.2 = some w → f.2.2 = some w' → ¬ wlt w' w)))

/-- The rows of the CSR are sorted. -/
def SortedCsr (wgt : Bool) (wlt : W → W → Prop) (c : Csr W) : Prop := (csrEdges wgt c).Pairwise (InOrder wlt)

/-- The program sorts at its end: after the last `sort` or `new_csr_without_dups` it only saves the CSR and loads it as a CSR.  `b`
says whether the CSR at the start is sorted. -/
def SortsLast (b : Prop) : {k k' : Kind} → Prog k k' → Prop
  | _, _, .done => b
  | _, _, .step _ .sort p => SortsLast True p
  | _, _, .step _ .withoutDups p => SortsLast True p
  | _, _, .step _ (.saveCsr .csr _ _) p => SortsLast b p
  | _, _, .step _ _ p => SortsLast False p

/-- Two CSRs with the same arrays. -/
structure SameArrays (wgt : Bool) (c c' : Csr W) : Prop where
  n : c.n = c'.n
  m : c.m = c'.m
  offsets : c.offsets = c'.offsets
  endpoints : c.endpoints = c'.endpoints
  weights : wgt = true → c.weights = c'.weights

end Pigo.Session.Spec
