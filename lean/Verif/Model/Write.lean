import Verif.Model.Ascii
import Verif.Model.Binary

/-!
# Text output

`COO::write` (impl/coo.impl.hpp 569–657) and `Tensor::write` (impl/tensor.impl.hpp 286–371): one pass computes the
size of the text of each thread, the other one writes it.

Both passes are `#pragma omp for` loops without `schedule` clause: the assignment of the iterations to the
threads is a parameter (`its`, one list of iterations per thread), see `OmpStatic`.
Sizes are `size_t` computations, taken in unbounded arithmetic.
-/

namespace Pigo

variable {W : Type}

/-- `#pragma omp for` with a static schedule without chunk size (the default of the common implementations): the
iterations are divided in consecutive chunks, given to the threads in order.  All such loops with the same number of
iterations in one parallel region have the same assignment. -/
structure OmpStatic (k T : Nat) (its : List (List Nat)) : Prop where
  threads : its.length = T
  chunks : its.flatten = List.range k

/-- How a weight is written: its `write_size` and the stores and new position of `write_ascii`
(impl/pigo.impl.hpp 239–304); `wgt` is the template parameter. -/
structure WText (W : Type) where
  wgt : Bool
  size : W → Nat
  ascii : Nat → W → M (List (Nat × Byte) × Nat)

/-- No weights. -/
def wtNone : WText Unit where
  wgt := false
  size := fun _ => 0
  ascii := fun fp _ => .ok ([], fp)

/-- Unsigned integral weights (impl/pigo.impl.hpp 239–252, 276–293). -/
def wtUint : WText Nat where
  wgt := true
  size := writeSizeU
  ascii := fun fp n => .ok (writeAsciiU fp n)

/-- Signed integral weights of `w` bits (impl/pigo.impl.hpp 239–252, 276–293). -/
def wtInt (w : Nat) : WText Int where
  wgt := true
  size := writeSizeS
  ascii := fun fp z => writeAsciiS w fp z

/-- Floating point weights (impl/pigo.impl.hpp 254–264, 295–304) with `txt` the text `stbsp_to_chars` makes (shorter than
1023 characters); it stores a terminating zero after the text, where the next character will go. -/
def wtFloat (txt : W → List Byte) : WText W where
  wgt := true
  size := fun w => (txt w).length
  ascii := fun fp w => .ok (blockActs fp (txt w) ++ [(fp + (txt w).length, 0)], fp + (txt w).length)

/-- `pigo::write(fp, ch)` of a character (impl/pigo.impl.hpp 173–179). -/
def putChar (fp : Nat) (b : Byte) : List (Nat × Byte) × Nat := ([(fp, b)], fp + 1)

/-- The first pass of a thread (impl/coo.impl.hpp 606–623, impl/tensor.impl.hpp 323–338): sum of the sizes of its
iterations. -/
def sizeLoopE (size : Nat → M Nat) : List Nat → M Nat
  | [] => .ok 0
  | e :: es => do
    let s ← size e
    let r ← sizeLoopE size es
    .ok (s + r)

/-- The second pass of a thread from position `fp` (impl/coo.impl.hpp 643–655, impl/tensor.impl.hpp 357–369): its
stores. -/
def writeLoop (ascii : Nat → Nat → M (List (Nat × Byte) × Nat)) : Nat → List Nat → M (List (Nat × Byte))
  | _, [] => .ok []
  | fp, e :: es => do
    let (a, fp') ← ascii fp e
    let r ← writeLoop ascii fp' es
    .ok (a ++ r)

/-- The array `pos_offsets` after the prefix sum (impl/coo.impl.hpp 596, 625–634; impl/tensor.impl.hpp 313, 340–349):
thread `t` starts at element `t`, the last element is the total. -/
def posOffsets (sizes : List Nat) : List Nat := 0 :: prefixSums 0 sizes

/-- Both passes (impl/coo.impl.hpp 596–656, impl/tensor.impl.hpp 313–370), with the assignment `its` of the first loop
and `its'` of the second loop; the content of the file. -/
def twoPass (size : Nat → M Nat) (ascii : Nat → Nat → M (List (Nat × Byte) × Nat)) (its its' : List (List Nat)) :
    R (List Byte) := do
  let sizes ← R.lift (mapE (sizeLoopE size) its)
  let offs := posOffsets sizes
  let f ← R.lift (openW (offs.getD its.length 0))
  let threads ← R.lift (mapE (fun p : Nat × List Nat => writeLoop ascii (f.fp + p.1) p.2) (offs.zip its'))
  R.par storeAct threads f.bytes

/-- Size of the line of entry `e` of a COO (impl/coo.impl.hpp 607–622). -/
def cooLineSize (wt : WText W) (c : Coo W) (e : Nat) : M Nat := do
  let x ← load c.x e
  let y ← load c.y e
  if wt.wgt then do
    let w ← load c.w e
    .ok (writeSizeU x + 1 + writeSizeU y + 1 + wt.size w + 1)
  else .ok (writeSizeU x + 1 + writeSizeU y + 1)

/-- Stores for the line of entry `e` of a COO (impl/coo.impl.hpp 644–654). -/
def cooLineActs (wt : WText W) (c : Coo W) (fp e : Nat) : M (List (Nat × Byte) × Nat) := do
  let x ← load c.x e
  let (a1, fp) := writeAsciiU fp x
  let (a2, fp) := putChar fp 32
  let y ← load c.y e
  let (a3, fp) := writeAsciiU fp y
  if wt.wgt then do
    let (a4, fp) := putChar fp 32
    let w ← load c.w e
    let (a5, fp) ← wt.ascii fp w
    let (a6, fp) := putChar fp 10
    .ok (a1 ++ a2 ++ a3 ++ a4 ++ a5 ++ a6, fp)
  else do
    let (a6, fp) := putChar fp 10
    .ok (a1 ++ a2 ++ a3 ++ a6, fp)

/-- `COO::write` (impl/coo.impl.hpp 569–657) with `T` threads: the content of the file. -/
def writeCoo (T : Nat) (wt : WText W) (c : Coo W) : R (List Byte) := do
  let its ← R.choose (OmpStatic c.m T)
  twoPass (cooLineSize wt c) (cooLineActs wt c) its its

/-- Size of the coordinates of entry `e` of a tensor (impl/tensor.impl.hpp 324–329), `idx` from `i` on; the index is
computed in the ordinal type of `ob` bytes. -/
def coordsSize (ob : Nat) (t : Tensor W) (e : Nat) : List Nat → M Nat
  | [] => .ok 0
  | idx :: is => do
    let x ← load t.c (inOrd (8 * ob) (e * t.order + idx))
    let r ← coordsSize ob t e is
    .ok (writeSizeU x + 1 + r)

/-- Size of the line of entry `e` of a tensor (impl/tensor.impl.hpp 324–337). -/
def tensorLineSize (ob : Nat) (wt : WText W) (t : Tensor W) (e : Nat) : M Nat := do
  let s ← coordsSize ob t e (List.range t.order)
  if wt.wgt then do
    let w ← load t.w e
    .ok (s + (1 + wt.size w))
  else .ok s

/-- Stores of the coordinates of entry `e` of a tensor (impl/tensor.impl.hpp 358–363). -/
def coordsActs (ob : Nat) (t : Tensor W) (e : Nat) : Nat → List Nat → M (List (Nat × Byte) × Nat)
  | fp, [] => .ok ([], fp)
  | fp, idx :: is => do
    let x ← load t.c (inOrd (8 * ob) (e * t.order + idx))
    let (a1, fp) := writeAsciiU fp x
    let (a2, fp) := if idx < t.order - 1 then putChar fp 32 else ([], fp)
    let (a3, fp) ← coordsActs ob t e fp is
    .ok (a1 ++ a2 ++ a3, fp)

/-- Stores for the line of entry `e` of a tensor (impl/tensor.impl.hpp 358–369). -/
def tensorLineActs (ob : Nat) (wt : WText W) (t : Tensor W) (fp e : Nat) : M (List (Nat × Byte) × Nat) := do
  let (a1, fp) ← coordsActs ob t e fp (List.range t.order)
  if wt.wgt then do
    let (a2, fp) := putChar fp 32
    let w ← load t.w e
    let (a3, fp) ← wt.ascii fp w
    let (a4, fp) := putChar fp 10
    .ok (a1 ++ a2 ++ a3 ++ a4, fp)
  else do
    let (a4, fp) := putChar fp 10
    .ok (a1 ++ a4, fp)

/-- `Tensor::write` (impl/tensor.impl.hpp 286–371) with `T` threads: the content of the file. -/
def writeTensor (T ob : Nat) (wt : WText W) (t : Tensor W) : R (List Byte) := do
  let its ← R.choose (OmpStatic t.m T)
  twoPass (tensorLineSize ob wt t) (tensorLineActs ob wt t) its its

end Pigo
