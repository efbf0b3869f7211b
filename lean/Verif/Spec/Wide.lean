import Verif.Spec.Binary

/-!
# The headers of the binary files

What comes before the arrays; the values need not be those of any object.
-/

namespace Pigo.Spec

variable {W : Type}

/-- The header of a COO file. -/
def cooHead (lb ob nrows ncols n m : Nat) : List Byte :=
  str "PIGO-COO-v1" ++ le 1 lb ++ le 1 ob ++ le lb nrows ++ le lb ncols ++ le lb n ++ le ob m

/-- The header of a CSR file. -/
def csrHead (lb ob n m nrows ncols : Nat) : List Byte :=
  str "PIGO-CSR-v2" ++ le 1 lb ++ le 1 ob ++ le lb n ++ le ob m ++ le lb nrows ++ le lb ncols

/-- The header of a Tensor file; with weights it has the size of a weight, `wb`. -/
def tensorHead (lb ob : Nat) (wgt : Bool) (wb order m : Nat) : List Byte :=
  str "PIGO-Tensor-2" ++ le 1 lb ++ le 1 ob ++ (if wgt then le 1 wb else []) ++ le ob order ++ le ob m

end Pigo.Spec
