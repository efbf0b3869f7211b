import Verif.Spec.Ascii
import Verif.Spec.Csr

/-!
# Specification: text output
-/

namespace Pigo.Spec

variable {W : Type}

/-- The line of an entry: `x y` or `x y w`, and a newline; `txt` is the text of a weight. -/
def cooLine (wgt : Bool) (txt : W → List Byte) (e : Nat × Nat × W) : List Byte :=
  showNat e.1 ++ str " " ++ showNat e.2.1 ++ (if wgt then str " " ++ txt e.2.2 else []) ++ str "\n"

/-- The file of a list of entries. -/
def cooText (wgt : Bool) (txt : W → List Byte) (es : List (Nat × Nat × W)) : List Byte := es.flatMap (cooLine wgt txt)

/-- The line of a tensor entry: the coordinates and the weight, separated by blanks, and a newline. -/
def tensorLine (wgt : Bool) (txt : W → List Byte) (e : List Nat × W) : List Byte :=
  List.intercalate (str " ") (e.1.map showNat ++ if wgt then [txt e.2] else []) ++ str "\n"

/-- The file of a list of tensor entries. -/
def tensorText (wgt : Bool) (txt : W → List Byte) (es : List (List Nat × W)) : List Byte := es.flatMap (tensorLine wgt txt)

end Pigo.Spec
