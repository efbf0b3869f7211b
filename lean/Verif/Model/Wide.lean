import Verif.Model.Dispatch

/-!
# `size_t` of 64 bits

The binary formats once more, with the sizes computed in `size_t` arithmetic: everything is taken modulo `2^64`.  (`Model/Binary` takes the sizes in
unbounded arithmetic.)

Allocation (pigo.hpp 497–526): `malloc(sizeof(T)*nmemb)` for raw pointers, with the product taken in `size_t`; `resize(nmemb)` for vectors throws
`std::length_error` and `new T[nmemb]` throws `std::bad_array_new_length` when the array has more than `PTRDIFF_MAX` bytes; `malloc` of more than
`PTRDIFF_MAX` bytes fails (glibc).  Other allocations succeed (for those that fail see `Model/Fail`).
-/

namespace Pigo

variable {W : Type}

/-- A value stored in a `size_t`. -/
def szt (n : Nat) : Nat := n % 2 ^ 64

/-- `allocate_mem_` of `n` elements of `k` bytes (pigo.hpp 497–526): the number of bytes of the array. -/
def allocW (s : Storage) (k n : Nat) : M Nat :=
  match s with
  | .pointer => if szt (k * n) < 2 ^ 63 then .ok (szt (k * n)) else .error .error
  | _ => if k * n < 2 ^ 63 then .ok (k * n) else .error .error

/-- `parallel_read` (impl/pigo.impl.hpp 656–682) of `bytes` bytes into an array of `cap` bytes, seen as elements of `k` bytes. -/
def readCap {α : Type} (T : Nat) (μ : Mapping) (k : Nat) (dec : List Byte → α) (cap bytes p : Nat) : R (List α × Nat) := do
  let junk ← R.any (Nat → Byte)
  let (b, p) ← parRead T μ (alloc junk cap) bytes p
  pure (decArr k dec (cap / k) b, p)

/-- `detail::weight_size_<wgt, W, O>(m)` (impl/pigo.impl.hpp 684–697) -/
def weightSizeW (wgt : Bool) (cw : Codec W) (m : Nat) : Nat := if wgt then szt (cw.size * m) else 0

/-- The allocation of weights, `allocate_mem_<WS,wgt>(w_, m_)` (impl/coo.impl.hpp 135). -/
def allocWeightsW (ws : Storage) (wgt : Bool) (cw : Codec W) (m : Nat) : M Nat := if wgt then allocW ws cw.size m else .ok 0

/-- The weights part of the `read_bin_` functions (impl/coo.impl.hpp 562–566), into an array of `cap` bytes. -/
def readWeightsW (T : Nat) (μ : Mapping) (wgt : Bool) (cw : Codec W) (cap m p : Nat) : R (List W × Nat) := do
  if weightSizeW wgt cw m > 0 then readCap T μ cw.size cw.dec cap (weightSizeW wgt cw m) p else pure ([], p)

/-- `COO::read_bin_` (impl/coo.impl.hpp 531–567), `allocate_` (131–136). -/
def wReadBinCoo (s ws : Storage) (T lb ob : Nat) (wgt : Bool) (cw : Codec W) (μ : Mapping) (p : Nat) : R (Coo W × Nat) := do
  let p ← R.lift (rdStr μ cooMagic p)
  let (ls, p) ← R.lift (rdLE μ 1 p)
  let (os, p) ← R.lift (rdLE μ 1 p)
  let _ ← R.lift (sizeCheck ls lb)
  let _ ← R.lift (sizeCheck os ob)
  let (nrows, p) ← R.lift (rdLE μ lb p)
  let (ncols, p) ← R.lift (rdLE μ lb p)
  let (n, p) ← R.lift (rdLE μ lb p)
  let (m, p) ← R.lift (rdLE μ ob p)
  let cx ← R.lift (allocW s lb m)
  let cy ← R.lift (allocW s lb m)
  let cww ← R.lift (allocWeightsW ws wgt cw m)
  let (x, p) ← readCap T μ lb decLE cx (szt (lb * m)) p
  let (y, p) ← readCap T μ lb decLE cy (szt (lb * m)) p
  let (w, p) ← readWeightsW T μ wgt cw cww m p
  pure ({ x := x, y := y, w := w, n := n, m := m, nrows := nrows, ncols := ncols }, p)

/-- `CSR::read_bin_` (impl/csr.impl.hpp 495–528), `allocate_` (69–74). -/
def wReadBinCsr (st : Storage × Storage) (ws : Storage) (T lb ob : Nat) (wgt : Bool) (cw : Codec W) (μ : Mapping) (p : Nat) : R (Csr W × Nat) := do
  let p ← R.lift (rdStr μ csrMagic p)
  let (ls, p) ← R.lift (rdLE μ 1 p)
  let (os, p) ← R.lift (rdLE μ 1 p)
  let _ ← R.lift (sizeCheck ls lb)
  let _ ← R.lift (sizeCheck os ob)
  let (n, p) ← R.lift (rdLE μ lb p)
  let (m, p) ← R.lift (rdLE μ ob p)
  let (nrows, p) ← R.lift (rdLE μ lb p)
  let (ncols, p) ← R.lift (rdLE μ lb p)
  let ce ← R.lift (allocW st.1 lb m)
  let cww ← R.lift (allocWeightsW ws wgt cw m)
  let co ← R.lift (allocW st.2 ob (succL lb n))
  let (offsets, p) ← readCap T μ ob decLE co (szt (ob * succL lb n)) p
  let (endpoints, p) ← readCap T μ lb decLE ce (szt (lb * m)) p
  let (weights, p) ← readWeightsW T μ wgt cw cww m p
  pure ({ offsets := offsets, endpoints := endpoints, weights := weights, n := n, m := m, nrows := nrows, ncols := ncols }, p)

/-- `Tensor::read_bin_` (impl/tensor.impl.hpp 249–284), `allocate_` (50–54, where `order_*m_` is computed in `O`). -/
def wReadBinTensor (s ws : Storage) (T lb ob : Nat) (wgt : Bool) (cw : Codec W) (μ : Mapping) (p : Nat) : R (Tensor W) := do
  let p ← R.lift (rdStr μ tensorMagic p)
  let (ls, p) ← R.lift (rdLE μ 1 p)
  let (os, p) ← R.lift (rdLE μ 1 p)
  let _ ← R.lift (sizeCheck ls lb)
  let _ ← R.lift (sizeCheck os ob)
  let p ← R.lift (if wgt then (rdLE μ 1 p >>= fun (ws, p) => sizeCheck ws cw.size >>= fun _ => .ok p) else .ok p)
  let (order, p) ← R.lift (rdLE μ ob p)
  let (m, p) ← R.lift (rdLE μ ob p)
  let cc ← R.lift (allocW s lb (inOrd (8 * ob) (order * m)))
  let cww ← R.lift (allocWeightsW ws wgt cw m)
  let (c, p) ← readCap T μ lb decLE cc (szt (lb * order * m)) p
  let (w, _) ← readWeightsW T μ wgt cw cww m p
  pure { c := c, w := w, order := order, m := m }

/-! ## Saving -/

/-- The weights part of the `save` functions (impl/coo.impl.hpp 525–528). -/
def saveWeightsW (T : Nat) (wgt : Bool) (cw : Codec W) (m : Nat) (w : List W) (f : WFile) : R WFile :=
  if weightSizeW wgt cw m > 0 then parWrite T (rawArr cw.enc w) (weightSizeW wgt cw m) f else pure f

/-- `COO::save` (impl/coo.impl.hpp 483–529) -/
def wSaveCoo (T lb ob : Nat) (wgt : Bool) (cw : Codec W) (c : Coo W) : R (List Byte) := do
  let f ← R.lift (openW (szt (szt (cooMagic.length + 2 + (lb * 3 + ob) + szt (szt (lb * c.m) * 2)) + weightSizeW wgt cw c.m)))
  let f ← R.lift (wBytes cooMagic f)
  let f ← R.lift (wBytes (encLE 1 lb) f)
  let f ← R.lift (wBytes (encLE 1 ob) f)
  let f ← R.lift (wBytes (encLE lb c.nrows) f)
  let f ← R.lift (wBytes (encLE lb c.ncols) f)
  let f ← R.lift (wBytes (encLE lb c.n) f)
  let f ← R.lift (wBytes (encLE ob c.m) f)
  let f ← parWrite T (rawArr (encLE lb) c.x) (szt (lb * c.m)) f
  let f ← parWrite T (rawArr (encLE lb) c.y) (szt (lb * c.m)) f
  let f ← saveWeightsW T wgt cw c.m c.w f
  pure f.bytes

/-- `CSR::save_size` (impl/csr.impl.hpp 426–442) -/
def csrSaveSizeW (lb ob : Nat) (wgt : Bool) (cw : Codec W) (c : Csr W) : Nat :=
  szt (csrMagic.length + 2 + (lb * 3 + ob) + szt (szt (szt (ob * succL lb c.n) + szt (lb * c.m)) + weightSizeW wgt cw c.m))

/-- `CSR::save(File&)` (impl/csr.impl.hpp 456–489) -/
def wSaveCsrTo (T lb ob : Nat) (wgt : Bool) (cw : Codec W) (c : Csr W) (f : WFile) : R WFile := do
  let f ← R.lift (wBytes csrMagic f)
  let f ← R.lift (wBytes (encLE 1 lb) f)
  let f ← R.lift (wBytes (encLE 1 ob) f)
  let f ← R.lift (wBytes (encLE lb c.n) f)
  let f ← R.lift (wBytes (encLE ob c.m) f)
  let f ← R.lift (wBytes (encLE lb c.nrows) f)
  let f ← R.lift (wBytes (encLE lb c.ncols) f)
  let f ← parWrite T (rawArr (encLE ob) c.offsets) (szt (ob * succL lb c.n)) f
  let f ← parWrite T (rawArr (encLE lb) c.endpoints) (szt (lb * c.m)) f
  saveWeightsW T wgt cw c.m c.weights f

/-- `CSR::save(std::string)` (impl/csr.impl.hpp 444–454) -/
def wSaveCsr (T lb ob : Nat) (wgt : Bool) (cw : Codec W) (c : Csr W) : R (List Byte) := do
  let f ← R.lift (openW (csrSaveSizeW lb ob wgt cw c))
  let f ← wSaveCsrTo T lb ob wgt cw c f
  pure f.bytes

/-- `Tensor::save` (impl/tensor.impl.hpp 200–247) -/
def wSaveTensor (T lb ob : Nat) (wgt : Bool) (cw : Codec W) (t : Tensor W) : R (List Byte) := do
  let f ← R.lift (openW (szt (szt (tensorMagic.length + 2 + (if wgt then 1 else 0) + 2 * ob + szt (szt (lb * t.m) * t.order)) + weightSizeW wgt cw t.m)))
  let f ← R.lift (wBytes tensorMagic f)
  let f ← R.lift (wBytes (encLE 1 lb) f)
  let f ← R.lift (wBytes (encLE 1 ob) f)
  let f ← R.lift (wBytes (if wgt then encLE 1 cw.size else []) f)
  let f ← R.lift (wBytes (encLE ob t.order) f)
  let f ← R.lift (wBytes (encLE ob t.m) f)
  let f ← parWrite T (rawArr (encLE lb) t.c) (szt (szt (lb * t.order) * t.m)) f
  let f ← saveWeightsW T wgt cw t.m t.w f
  pure f.bytes

/-! ## Text -/

/-- `tid_start_i` and `tid_end_i` of the text readers (impl/coo.impl.hpp 418–419, impl/csr.impl.hpp 299–300, impl/tensor.impl.hpp 142–143,
impl/pigo.impl.hpp 544–545, 597–598): `(tid*size)/num_threads` in `size_t`. -/
def splitW (size T tid : Nat) : Nat := szt (tid * size) / T

/-- The reader of thread `tid` of `read_el_` (impl/coo.impl.hpp 412–431). -/
def wElRegion (μ : Mapping) (r : Reader) (T tid : Nat) : M Reader := do
  let re ← nextLineInt μ (r.plus (splitW r.size T (tid + 1)))
  let rs ← elStart μ (r.plus (splitW r.size T tid)) tid
  .ok (rs.smallerEnd re)

end Pigo
