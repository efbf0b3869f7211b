import Verif.Model.CsrOps

/-!
# The binary formats

`File` for writing and reading (impl/pigo.impl.hpp 22–133, 165–186), `parallel_write`, `parallel_read`
(627–682), `save` and `read_bin_` of COO (impl/coo.impl.hpp 483–567), CSR (impl/csr.impl.hpp 426–528),
Tensor (impl/tensor.impl.hpp 200–284) and `DiGraph` (impl/graph.impl.hpp 22–81).

Labels and ordinals are unsigned with `lb = sizeof(L)`, `ob = sizeof(O)` bytes, stored little endian (the byte
order of the machine).  Sizes are `size_t` computations, taken in unbounded arithmetic.
-/

namespace Pigo

variable {W : Type}

/-- The bytes of an unsigned value of `k` bytes, little endian. -/
def encLE : Nat → Nat → List Byte
  | 0, _ => []
  | k+1, n => UInt8.ofNat (n % 256) :: encLE k (n / 256)

/-- The value of bytes, little endian. -/
def decLE : List Byte → Nat
  | [] => 0
  | b :: l => b.toNat + 256 * decLE l

/-- The object representation of a weight type: `size = sizeof(W)` bytes; the values `ok` of the type are loaded back
unchanged. -/
structure Codec (W : Type) where
  size : Nat
  enc : W → List Byte
  dec : List Byte → W
  ok : W → Prop
  pos : 0 < size
  len : ∀ w, (enc w).length = size
  inv : ∀ w, ok w → dec (enc w) = w

/-- The memory of an array (`detail::get_raw_data_`). -/
def rawArr {α : Type} (enc : α → List Byte) (l : List α) : List Byte := l.flatMap enc

/-- `n` elements of `k` bytes seen in memory `bs`. -/
def decArr {α : Type} (k : Nat) (dec : List Byte → α) (n : Nat) (bs : List Byte) : List α :=
  (List.range n).map (fun i => dec ((bs.drop (i * k)).take k))

/-! ## Writing -/

/-- A file open for writing: the position `fp_ - data_` and the mapped content. -/
structure WFile where
  fp : Nat
  bytes : List Byte

/-- `File(fn, WRITE, max_size)` (impl/pigo.impl.hpp 22–77): `fseeko(max_size-1)`, `fputc(1)`; system calls are
assumed to succeed. -/
def openW (size : Nat) : M WFile :=
  if size = 0 then .error .error else .ok ⟨0, List.replicate (size - 1) 0 ++ [1]⟩

/-- `write(fp, val)` (impl/pigo.impl.hpp 173–186): the bytes of `val`, position advanced. -/
def wBytes (bs : List Byte) (f : WFile) : M WFile := do
  let b ← runActs storeAct (blockActs f.fp bs) f.bytes
  .ok ⟨f.fp + bs.length, b⟩

/-- Size of the chunk of thread `tid` (impl/pigo.impl.hpp 640–643, 669–672). -/
def chunkLen (n T tid : Nat) : Nat := if tid = T - 1 then n - n / T * (T - 1) else n / T

/-- First byte of the chunk (impl/pigo.impl.hpp 645, 674). -/
def chunkStart (n T tid : Nat) : Nat := tid * (n / T)

/-- `memcpy` of a chunk to `base + start` out of the array `v` (impl/pigo.impl.hpp 648–649, 677–678): byte stores. -/
def chunkActs (v : Nat → M Byte) (base n T tid : Nat) : M (List (Nat × Byte)) := do
  let bs ← mapE v (List.range' (chunkStart n T tid) (chunkLen n T tid))
  .ok (blockActs (base + chunkStart n T tid) bs)

/-- `parallel_write(fp, v, v_size)` (impl/pigo.impl.hpp 627–654) -/
def parWrite (T : Nat) (v : List Byte) (n : Nat) (f : WFile) : R WFile := do
  let threads ← R.lift (mapE (chunkActs (load v) f.fp n T) (List.range T))
  let b ← R.par storeAct threads f.bytes
  pure ⟨f.fp + n, b⟩

/-- `detail::weight_size_<wgt, W, O>(m)` (impl/pigo.impl.hpp 684–697) -/
def weightSize (wgt : Bool) (cw : Codec W) (m : Nat) : Nat := if wgt then cw.size * m else 0

/-- `n_+1` for a label type of `lb` bytes (narrow types are promoted to `int`). -/
def succL (lb n : Nat) : Nat := if lb < 4 then n + 1 else (n + 1) % 256 ^ lb

/-- coo.hpp 343 -/
def cooMagic : List Byte := str "PIGO-COO-v1"
/-- csr.hpp 275 -/
def csrMagic : List Byte := str "PIGO-CSR-v2"
/-- graph.hpp 338 -/
def digraphMagic : List Byte := str "PIGO-DiGraph-v1"
/-- tensor.hpp 222 -/
def tensorMagic : List Byte := str "PIGO-Tensor-2"

/-- The size computed by `COO::save` (impl/coo.impl.hpp 486–496). -/
def cooSaveSize (lb ob : Nat) (wgt : Bool) (cw : Codec W) (c : Coo W) : Nat :=
  cooMagic.length + 2 + (lb * 3 + ob) + lb * c.m * 2 + weightSize wgt cw c.m

/-- The weights part of the `save` functions: `if (w_size > 0) …` (impl/coo.impl.hpp 525–528). -/
def saveWeights (T : Nat) (wgt : Bool) (cw : Codec W) (m : Nat) (w : List W) (f : WFile) : R WFile :=
  if weightSize wgt cw m > 0 then parWrite T (rawArr cw.enc w) (weightSize wgt cw m) f else pure f

/-- `COO::save` (impl/coo.impl.hpp 483–529): the content of the file. -/
def saveCoo (T lb ob : Nat) (wgt : Bool) (cw : Codec W) (c : Coo W) : R (List Byte) := do
  let f ← R.lift (openW (cooSaveSize lb ob wgt cw c))
  let f ← R.lift (wBytes cooMagic f)
  let f ← R.lift (wBytes (encLE 1 lb) f)
  let f ← R.lift (wBytes (encLE 1 ob) f)
  let f ← R.lift (wBytes (encLE lb c.nrows) f)
  let f ← R.lift (wBytes (encLE lb c.ncols) f)
  let f ← R.lift (wBytes (encLE lb c.n) f)
  let f ← R.lift (wBytes (encLE ob c.m) f)
  let f ← parWrite T (rawArr (encLE lb) c.x) (lb * c.m) f
  let f ← parWrite T (rawArr (encLE lb) c.y) (lb * c.m) f
  let f ← saveWeights T wgt cw c.m c.w f
  pure f.bytes

/-- `CSR::save_size` (impl/csr.impl.hpp 426–442) -/
def csrSaveSize (lb ob : Nat) (wgt : Bool) (cw : Codec W) (c : Csr W) : Nat :=
  csrMagic.length + 2 + (lb * 3 + ob) + (ob * succL lb c.n + lb * c.m + weightSize wgt cw c.m)

/-- `CSR::save(File&)` (impl/csr.impl.hpp 456–489) -/
def saveCsrTo (T lb ob : Nat) (wgt : Bool) (cw : Codec W) (c : Csr W) (f : WFile) : R WFile := do
  let f ← R.lift (wBytes csrMagic f)
  let f ← R.lift (wBytes (encLE 1 lb) f)
  let f ← R.lift (wBytes (encLE 1 ob) f)
  let f ← R.lift (wBytes (encLE lb c.n) f)
  let f ← R.lift (wBytes (encLE ob c.m) f)
  let f ← R.lift (wBytes (encLE lb c.nrows) f)
  let f ← R.lift (wBytes (encLE lb c.ncols) f)
  let f ← parWrite T (rawArr (encLE ob) c.offsets) (ob * succL lb c.n) f
  let f ← parWrite T (rawArr (encLE lb) c.endpoints) (lb * c.m) f
  saveWeights T wgt cw c.m c.weights f

/-- `CSR::save(std::string)` (impl/csr.impl.hpp 444–454) -/
def saveCsr (T lb ob : Nat) (wgt : Bool) (cw : Codec W) (c : Csr W) : R (List Byte) := do
  let f ← R.lift (openW (csrSaveSize lb ob wgt cw c))
  let f ← saveCsrTo T lb ob wgt cw c f
  pure f.bytes

/-- A `DiGraph` (graph.hpp 145–): the graphs `in_` and `out_`. -/
structure DiGraph (W : Type) where
  inG : Csr W
  outG : Csr W
  deriving DecidableEq, Repr

/-- `DiGraph::save` (impl/graph.impl.hpp 63–81) -/
def saveDiGraph (T lb ob : Nat) (wgt : Bool) (cw : Codec W) (g : DiGraph W) : R (List Byte) := do
  let f ← R.lift (openW (digraphMagic.length + csrSaveSize lb ob wgt cw g.inG + csrSaveSize lb ob wgt cw g.outG))
  let f ← R.lift (wBytes digraphMagic f)
  let f ← saveCsrTo T lb ob wgt cw g.inG f
  let f ← saveCsrTo T lb ob wgt cw g.outG f
  pure f.bytes

/-- A `Tensor` object (tensor.hpp): coordinates, entry by entry, and weights. -/
structure Tensor (W : Type) where
  c : List Nat
  w : List W
  order : Nat
  m : Nat
  deriving DecidableEq, Repr

/-- The size computed by `Tensor::save` (impl/tensor.impl.hpp 203–217). -/
def tensorSaveSize (lb ob : Nat) (wgt : Bool) (cw : Codec W) (t : Tensor W) : Nat :=
  tensorMagic.length + 2 + (if wgt then 1 else 0) + 2 * ob + lb * t.m * t.order + weightSize wgt cw t.m

/-- `Tensor::save` (impl/tensor.impl.hpp 200–247) -/
def saveTensor (T lb ob : Nat) (wgt : Bool) (cw : Codec W) (t : Tensor W) : R (List Byte) := do
  let f ← R.lift (openW (tensorSaveSize lb ob wgt cw t))
  let f ← R.lift (wBytes tensorMagic f)
  let f ← R.lift (wBytes (encLE 1 lb) f)
  let f ← R.lift (wBytes (encLE 1 ob) f)
  let f ← R.lift (wBytes (if wgt then encLE 1 cw.size else []) f)
  let f ← R.lift (wBytes (encLE ob t.order) f)
  let f ← R.lift (wBytes (encLE ob t.m) f)
  let f ← parWrite T (rawArr (encLE lb) t.c) (lb * t.order * t.m) f
  let f ← saveWeights T wgt cw t.m t.w f
  pure f.bytes

/-! ## Reading -/

/-- `File::read(const std::string&)` (impl/pigo.impl.hpp 105–111) at position `p`. -/
def rdStr (μ : Mapping) (s : List Byte) (p : Nat) : M Nat := do
  let ok ← atStr μ s ⟨p, μ.bytes.length⟩
  if !ok then .error .error else .ok (p + s.length)

/-- `read<T>(fp)` for an unsigned type of `k` bytes (impl/pigo.impl.hpp 165–171): no bounds check. -/
def rdLE (μ : Mapping) (k p : Nat) : M (Nat × Nat) := do
  let bs ← getBytes μ k p
  .ok (decLE bs, p + k)

/-- `parallel_read(fp, v, v_size)` (impl/pigo.impl.hpp 656–682) into the array `dst`: the array and the new
position. -/
def parRead (T : Nat) (μ : Mapping) (dst : List Byte) (n p : Nat) : R (List Byte × Nat) := do
  let threads ← R.lift (mapE (chunkActs (fun i => μ.get (p + i)) 0 n T) (List.range T))
  let b ← R.par storeAct threads dst
  pure (b, p + n)

/-- Check of a recorded type size (impl/coo.impl.hpp 541–542). -/
def sizeCheck (a b : Nat) : M Unit := if a ≠ b then .error .error else .ok ()

/-- Allocation of `n` elements of `k` bytes followed by `parallel_read` of `bytes` bytes: the array read. -/
def readArr {α : Type} (T : Nat) (μ : Mapping) (k : Nat) (dec : List Byte → α) (n bytes p : Nat) : R (List α × Nat) := do
  let junk ← R.any (Nat → Byte)
  let (b, p) ← parRead T μ (alloc junk (k * n)) bytes p
  pure (decArr k dec n b, p)

/-- The weights part of the `read_bin_` functions (impl/coo.impl.hpp 562–566).  When nothing is read although
the type is weighted there is no weight at all. -/
def readWeights (T : Nat) (μ : Mapping) (wgt : Bool) (cw : Codec W) (m p : Nat) : R (List W × Nat) := do
  if weightSize wgt cw m > 0 then readArr T μ cw.size cw.dec m (weightSize wgt cw m) p else pure ([], p)

/-- `COO::read_bin_` (impl/coo.impl.hpp 531–567), at position `p` of the file: the COO and the new position. -/
def readBinCoo (T lb ob : Nat) (wgt : Bool) (cw : Codec W) (μ : Mapping) (p : Nat) : R (Coo W × Nat) := do
  let p ← R.lift (rdStr μ cooMagic p)
  let (ls, p) ← R.lift (rdLE μ 1 p)
  let (os, p) ← R.lift (rdLE μ 1 p)
  let _ ← R.lift (sizeCheck ls lb)
  let _ ← R.lift (sizeCheck os ob)
  let (nrows, p) ← R.lift (rdLE μ lb p)
  let (ncols, p) ← R.lift (rdLE μ lb p)
  let (n, p) ← R.lift (rdLE μ lb p)
  let (m, p) ← R.lift (rdLE μ ob p)
  let (x, p) ← readArr T μ lb decLE m (lb * m) p
  let (y, p) ← readArr T μ lb decLE m (lb * m) p
  let (w, p) ← readWeights T μ wgt cw m p
  pure ({ x := x, y := y, w := w, n := n, m := m, nrows := nrows, ncols := ncols }, p)

/-- `CSR::read_bin_` (impl/csr.impl.hpp 491–528), at position `p` of the file: the CSR and the new position. -/
def readBinCsr (T lb ob : Nat) (wgt : Bool) (cw : Codec W) (μ : Mapping) (p : Nat) : R (Csr W × Nat) := do
  let p ← R.lift (rdStr μ csrMagic p)
  let (ls, p) ← R.lift (rdLE μ 1 p)
  let (os, p) ← R.lift (rdLE μ 1 p)
  let _ ← R.lift (sizeCheck ls lb)
  let _ ← R.lift (sizeCheck os ob)
  let (n, p) ← R.lift (rdLE μ lb p)
  let (m, p) ← R.lift (rdLE μ ob p)
  let (nrows, p) ← R.lift (rdLE μ lb p)
  let (ncols, p) ← R.lift (rdLE μ lb p)
  let (offsets, p) ← readArr T μ ob decLE (succL lb n) (ob * succL lb n) p
  let (endpoints, p) ← readArr T μ lb decLE m (lb * m) p
  let (weights, p) ← readWeights T μ wgt cw m p
  pure ({ offsets := offsets, endpoints := endpoints, weights := weights, n := n, m := m, nrows := nrows, ncols := ncols }, p)

/-- `Tensor::read_bin_` (impl/tensor.impl.hpp 249–284): the tensor (the position is not used any more); `allocate_` computes `order_*m_` in `O` (50–54). -/
def readBinTensor (T lb ob : Nat) (wgt : Bool) (cw : Codec W) (μ : Mapping) (p : Nat) : R (Tensor W) := do
  let p ← R.lift (rdStr μ tensorMagic p)
  let (ls, p) ← R.lift (rdLE μ 1 p)
  let (os, p) ← R.lift (rdLE μ 1 p)
  let _ ← R.lift (sizeCheck ls lb)
  let _ ← R.lift (sizeCheck os ob)
  let p ← R.lift (if wgt then (rdLE μ 1 p >>= fun (ws, p) => sizeCheck ws cw.size >>= fun _ => .ok p) else .ok p)
  let (order, p) ← R.lift (rdLE μ ob p)
  let (m, p) ← R.lift (rdLE μ ob p)
  let (c, p) ← readArr T μ lb decLE (inOrd (8 * ob) (order * m)) (lb * order * m) p
  let (w, _) ← readWeights T μ wgt cw m p
  pure { c := c, w := w, order := order, m := m }

end Pigo
