import Verif.Model.Container
import Verif.Spec.Binary

/-! # What a file of several objects should contain -/

namespace Pigo.Box.Spec

variable {W : Type}

/-- The values of a record fit in its types, and the types are at most 255 bytes wide. -/
def Fits : Rec W → Prop
  | .csr P c => Pigo.Spec.FitsCsr P.lb P.ob P.wk.wgt P.cw c ∧ P.lb < 256 ∧ P.ob < 256
  | .num k v => v < 256 ^ k
  | _ => True

/-- The bytes of a record: those of the documented CSR layout, the little-endian bytes of a value, the string, the block. -/
def bytes : Rec W → List Byte
  | .csr P c => Pigo.Spec.csrFile P.lb P.ob P.wk.wgt P.cw c
  | .num k v => Pigo.Spec.le k v
  | .text s => s
  | .raw bs => bs

/-- The strings end before the last byte of the file. -/
def TextInside (size : Nat) (rs : List (Rec W)) : Prop :=
  ∀ pre s post, rs = pre ++ .text s :: post → total pre + s.length < size

end Pigo.Box.Spec
