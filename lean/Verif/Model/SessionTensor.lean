import Verif.Model.Session
import Verif.Model.Tensor

/-!
# Programs over tensors
-/

namespace Pigo.Session

variable {W : Type}

/-- The operations that make a tensor from a tensor: the copy constructor (tensor.hpp 203–206), `save` followed by the constructor from
the file `fn` (impl/tensor.impl.hpp 200–247, 32–48), `write` followed by it (286–371).  `pad` is the number of mapped bytes after the end
of the file. -/
inductive TOp
  | copy
  | save (fn : List Byte) (pad : Nat)
  | write (fn : List Byte) (pad : Nat)

/-- One operation with `T` threads (the functions cited at `TOp`). -/
def TOp.run (E : Types W) (T : Nat) : TOp → Tensor W → R (Tensor W)
  | .copy, t => copyTensor (8 * E.ob) T E.wk.wgt t
  | .save fn pad, t => do
    let bs ← saveTensor T E.lb E.ob E.wk.wgt E.cw t
    readTensor (E.params T) ⟨bs, pad⟩ fn 0 .auto
  | .write fn pad, t => do
    let bs ← writeTensor T E.ob E.wt t
    readTensor (E.params T) ⟨bs, pad⟩ fn 0 .auto

/-- A program: operations with their numbers of threads, each on the result of the one before. -/
def runTensor (E : Types W) : List (Nat × TOp) → Tensor W → R (Tensor W)
  | [], t => pure t
  | (T, op) :: p, t => do
    let t' ← op.run E T t
    runTensor E p t'

end Pigo.Session
