import Verif.Spec.Binary

/-!
# What the bytes of a binary file say

Numbers are little endian.
-/

namespace Pigo.Spec

variable {W : Type}

/-- The number in the `k` bytes from `p` on. -/
def num (mem : List Byte) (p k : Nat) : Nat := ((mem.drop p).take k).foldr (fun b n => b.toNat + 256 * n) 0

/-- `n` numbers of `k` bytes from `p` on. -/
def nums (mem : List Byte) (p k n : Nat) : List Nat := (List.range n).map (fun i => num mem (p + k * i) k)

/-- The weights from `p` on, if there are any. -/
def weightsAt (wgt : Bool) (cw : Codec W) (mem : List Byte) (p m : Nat) : List W :=
  if wgt then (List.range m).map (fun i => cw.dec ((mem.drop (p + cw.size * i)).take cw.size)) else []

/-- The size of the weights. -/
def weightsLen (wgt : Bool) (cw : Codec W) (m : Nat) : Nat := if wgt then cw.size * m else 0

/-- The `m` of a COO file. -/
def cooM (lb ob : Nat) (mem : List Byte) : Nat := num mem (13 + 3 * lb) ob

/-- Where a COO file ends according to its header. -/
def cooEnd (lb ob : Nat) (wgt : Bool) (cw : Codec W) (mem : List Byte) : Nat :=
  13 + 3 * lb + ob + 2 * (lb * cooM lb ob mem) + weightsLen wgt cw (cooM lb ob mem)

/-- The COO in the bytes `mem`. -/
def cooAt (lb ob : Nat) (wgt : Bool) (cw : Codec W) (mem : List Byte) : Coo W :=
  let m := cooM lb ob mem
  let q := 13 + 3 * lb + ob
  { nrows := num mem 13 lb, ncols := num mem (13 + lb) lb, n := num mem (13 + 2 * lb) lb, m := m,
    x := nums mem q lb m, y := nums mem (q + lb * m) lb m, w := weightsAt wgt cw mem (q + 2 * (lb * m)) m }

/-- Number of offsets of a CSR file: `n + 1`, in the label type if it has 4 or more bytes. -/
def csrOffsets (lb : Nat) (mem : List Byte) : Nat := if lb < 4 then num mem 13 lb + 1 else (num mem 13 lb + 1) % 256 ^ lb

/-- Where a CSR file ends according to its header. -/
def csrEnd (lb ob : Nat) (wgt : Bool) (cw : Codec W) (mem : List Byte) : Nat :=
  13 + 3 * lb + ob + ob * csrOffsets lb mem + lb * num mem (13 + lb) ob + weightsLen wgt cw (num mem (13 + lb) ob)

/-- The CSR in the bytes `mem`. -/
def csrAt (lb ob : Nat) (wgt : Bool) (cw : Codec W) (mem : List Byte) : Csr W :=
  let m := num mem (13 + lb) ob
  let q := 13 + 3 * lb + ob
  let k := csrOffsets lb mem
  { n := num mem 13 lb, m := m, nrows := num mem (13 + lb + ob) lb, ncols := num mem (13 + 2 * lb + ob) lb,
    offsets := nums mem q ob k, endpoints := nums mem (q + ob * k) lb m, weights := weightsAt wgt cw mem (q + ob * k + lb * m) m }

/-- Where the header of a Tensor file ends. -/
def tensorHdr (ob : Nat) (wgt : Bool) : Nat := 15 + (if wgt then 1 else 0) + 2 * ob

/-- The order in a Tensor file. -/
def tensorOrd (ob : Nat) (wgt : Bool) (mem : List Byte) : Nat := num mem (15 + if wgt then 1 else 0) ob

/-- The `m` in a Tensor file. -/
def tensorM (ob : Nat) (wgt : Bool) (mem : List Byte) : Nat := num mem (15 + (if wgt then 1 else 0) + ob) ob

/-- Where a Tensor file ends according to its header. -/
def tensorEnd (lb ob : Nat) (wgt : Bool) (cw : Codec W) (mem : List Byte) : Nat :=
  tensorHdr ob wgt + lb * (tensorOrd ob wgt mem * tensorM ob wgt mem) + weightsLen wgt cw (tensorM ob wgt mem)

/-- The Tensor in the bytes `mem`. -/
def tensorAt (lb ob : Nat) (wgt : Bool) (cw : Codec W) (mem : List Byte) : Tensor W :=
  let k := tensorOrd ob wgt mem * tensorM ob wgt mem
  { order := tensorOrd ob wgt mem, m := tensorM ob wgt mem, c := nums mem (tensorHdr ob wgt) lb k,
    w := weightsAt wgt cw mem (tensorHdr ob wgt + lb * k) (tensorM ob wgt mem) }

/-- What is mapped: the bytes of the file and the zeros up to the end of the page. -/
def mapped (file : List Byte) (pad : Nat) : List Byte := file ++ List.replicate pad 0

end Pigo.Spec
