import Verif.Model.Coo
import Verif.Model.Dispatch

/-!
# Reading tensors from text, and `max_labels` (impl/tensor.impl.hpp 32–198, 373–419)

Label and ordinal types are given by their widths `lw`, `ow` in bits (unsigned).
-/

namespace Pigo

section
variable (μ : Mapping)

/-- `while (*d == ' ') { ++d; };` (impl/pigo.impl.hpp 456): not guarded by the end of the reader.  The counter is the
number of file bytes left and one more, the padding after the file being zero. -/
def skipSpacesN : Nat → Reader → M Reader
  | 0, _ => .error .fuel
  | n+1, r => do
    let b ← μ.get r.d
    if b == 32 then skipSpacesN n r.adv else .ok r

/-- `while (*d == ' ') { ++d; };` (impl/pigo.impl.hpp 456) -/
def skipSpaces (r : Reader) : M Reader := skipSpacesN μ (μ.bytes.length - r.d + 1) r

/-- `count_spaces_to_eol()` (impl/pigo.impl.hpp 429–472): the loop, with a counter. -/
def countSpacesN : Nat → Nat → Reader → M (Nat × Reader)
  | 0, ct, r => if r.d < r.e then .error .fuel else .ok (ct, r)
  | n+1, ct, r =>
    if r.d < r.e then do
      let b ← μ.get r.d
      if b == nl then .ok (ct, r) else do
        let r ← scan μ (fun b => b != nl && !isCom b && !isDigit b) r
        let b ← μ.get r.d
        if !isDigit b then do
          let r ← moveToEol μ r
          .ok (ct, r)
        else do
          let r ← scan μ (fun b => isDigit b || b == 46) r
          let b ← μ.get r.d
          if b == nl then .ok (ct, r)
          else if isCom b then do
            let r ← moveToEol μ r
            .ok (ct, r)
          else do
            let r ← skipSpaces μ r
            let b ← μ.get r.d
            if b == nl then .ok (ct + 1 - 1, r)
            else if isCom b then do
              let r ← moveToEol μ r
              .ok (ct + 1 - 1, r)
            else countSpacesN n (ct + 1) r
    else .ok (ct, r)

/-- `count_spaces_to_eol()` (impl/pigo.impl.hpp 429–472) -/
def countSpaces (r : Reader) : M (Nat × Reader) := countSpacesN μ (r.e - r.d) 0 r

/-- The order found by `Tensor::read_el_` (impl/tensor.impl.hpp 117–122); `order_` has type `O`. -/
def tensorOrder (ow : Nat) (wgt : Bool) (r : Reader) : M Nat := do
  let r ← moveToFirstInt μ r
  let (ct, _) ← countSpaces μ r
  let o := ct % 2 ^ ow
  .ok (if wgt then o else (o + 1) % 2 ^ ow)

variable {W : Type} (lw : Nat) (wk : WKind W)

/-- The loop over the coordinates when counting (impl/tensor.impl.hpp 65–72); `false`: it returned early. -/
def skipCoords : Nat → Reader → M (Bool × Reader)
  | 0, r => .ok (true, r)
  | k+1, r => do
    let r ← if wk.wgt then moveToNextInt μ r else do
      let (_, r) ← readInt μ (wrapU lw) r
      .ok r
    if !r.good then .ok (false, r) else skipCoords k r

/-- `read_tensor_entry_i_<…,wgt,true>::op_` (impl/tensor.impl.hpp 60–77), counting. -/
def tensorCount (order pos : Nat) (r : Reader) : M (Nat × Reader) := do
  let (ok, r) ← skipCoords μ lw wk order r
  if !ok then .ok (pos, r) else do
    let r ← moveToEol μ r
    let r ← moveToNextInt μ r
    .ok (pos + 1, r)

/-- A store to `c_` or `w_`. -/
inductive TAct (W : Type)
  | setC (i v : Nat)
  | setW (i : Nat) (w : W)
  deriving DecidableEq, Repr

/-- The loop over the coordinates when setting (impl/tensor.impl.hpp 83–87): the stores so far are `acts`. -/
def readCoords (order pos : Nat) : Nat → Nat → List (TAct W) → Reader → M (Bool × List (TAct W) × Reader)
  | 0, _, acts, r => .ok (true, acts, r)
  | k+1, idx, acts, r => do
    let (v, r) ← readInt μ (wrapU lw) r
    if !r.good then .ok (false, acts, r) else readCoords order pos k (idx + 1) (acts ++ [.setC (pos * order + idx) v]) r

/-- `read_tensor_entry_i_<…,wgt,false>::op_` (impl/tensor.impl.hpp 79–95), setting.  The state is `coord_pos` and the
stores done so far. -/
def tensorSet (order : Nat) (st : Nat × List (TAct W)) (r : Reader) : M ((Nat × List (TAct W)) × Reader) := do
  let (ok, acts, r) ← readCoords μ lw order st.1 order 0 st.2 r
  if !ok then .ok ((st.1, acts), r) else do
    let (w, r) ← wk.read μ r
    let acts := if wk.wgt then acts ++ [.setW st.1 w] else acts
    let r ← moveToEol μ r
    let r ← moveToNextInt μ r
    .ok ((st.1 + 1, acts), r)

/-- Pass 1 of a thread (impl/tensor.impl.hpp 161–166) -/
def tensorCountAll (order : Nat) (rs : Reader) : M Nat := do
  let (c, _) ← whileGood (tensorCount μ lw wk order) (rs.e - rs.d) 0 rs
  .ok c

/-- Pass 2 of thread `p.1` with reader `p.2` (impl/tensor.impl.hpp 187–195) -/
def tensorSetAll (order : Nat) (offs : List Nat) (p : Nat × Reader) : M (List (TAct W)) := do
  let (st, _) ← whileGood (tensorSet μ lw wk order) (p.2.e - p.2.d) (startOf offs p.1, []) p.2
  .ok st.2

end

/-- The arrays of a tensor. -/
structure TMem (W : Type) where
  c : List Nat
  w : List W
  deriving DecidableEq, Repr

/-- Execute one store. -/
def stepT {W : Type} : TAct W → TMem W → M (TMem W)
  | .setC i v, s => do let c ← store s.c i v; .ok { s with c := c }
  | .setW i v, s => do let w ← store s.w i v; .ok { s with w := w }

/-- What the threads of `Tensor::read_el_` do. -/
structure TPlan (W : Type) where
  order : Nat
  m : Nat
  threads : List (List (TAct W))
  deriving DecidableEq, Repr

/-- `Tensor::read_el_` up to the stores (impl/tensor.impl.hpp 103–198).  The split of the file is written exactly as
in `COO::read_el_` (`elRegion`). -/
def tensorPlan {W : Type} (μ : Mapping) (lw ow : Nat) (wk : WKind W) (T : Nat) (r : Reader) : M (TPlan W) := do
  let order ← tensorOrder μ ow wk.wgt r
  let regions ← mapE (elRegion μ r T) (List.range T)
  let counts ← mapE (tensorCountAll μ lw wk order) regions
  let offs := prefixSums 0 counts
  let acts ← mapE (tensorSetAll μ lw wk order offs) ((List.range T).zip regions)
  .ok { order := order, m := offs.getD (T - 1) 0 % 2 ^ ow, threads := acts }

/-- `Tensor::read_el_` (impl/tensor.impl.hpp 103–198): allocation (`allocate_`, 50–54, the product being computed in
type `O`), then the stores of the threads in any interleaving. -/
def readTensorEl {W : Type} (μ : Mapping) (lw ow : Nat) (wk : WKind W) (T : Nat) (r : Reader) : R (Tensor W) := do
  let p ← R.lift (tensorPlan μ lw ow wk T r)
  let jc ← R.any (Nat → Nat)
  let jw ← R.any (Nat → W)
  let mem ← R.par stepT p.threads
    { c := alloc jc (inOrd ow (p.order * p.m)), w := if wk.wgt then alloc jw p.m else [] }
  pure { c := mem.c, w := mem.w, order := p.order, m := p.m }

/-- `Tensor::read_` (impl/tensor.impl.hpp 32–48). -/
def readTensor {W : Type} (P : Params W) (μ : Mapping) (fn : List Byte) (p : Nat) (ft : FileType) : R (Tensor W) := do
  let ft ← R.lift (usedType μ fn p ft)
  if ft = .edgeList then readTensorEl μ (8 * P.lb) (8 * P.ob) P.wk P.T (readerAt μ p)
  else if ft = .tensorBin then readBinTensor P.T P.lb P.ob P.wk.wgt P.cw μ p
  else R.lift (.error .nyi)

/-! ## `max_labels` -/

/-- `if (v > a[i]) a[i] = v;` (impl/tensor.impl.hpp 400–401, 412–413) where `old` is `a[i]`. -/
def storeMax (a : List Nat) (i v old : Nat) : M (List Nat) := if v > old then store a i v else .ok a

/-- The inner loop of the parallel region (impl/tensor.impl.hpp 399–402) for entry `e`, at index `idx`; the index
`e*order_+idx` is computed in type `O`. -/
def maxEntry {W : Type} (ow : Nat) (t : Tensor W) (e : Nat) : List Nat → List Nat → M (List Nat)
  | [], mx => .ok mx
  | idx :: is, mx => do
    let v ← load t.c (inOrd ow (e * t.order + idx))
    let old ← load mx idx
    let mx ← storeMax mx idx v old
    maxEntry ow t e is mx

/-- The loop of one thread over its entries (impl/tensor.impl.hpp 393–404): `my_maxes`. -/
def maxThread {W : Type} (ow : Nat) (t : Tensor W) : List Nat → List Nat → M (List Nat)
  | [], mx => .ok mx
  | e :: es, mx => do
    let mx ← maxEntry ow t e (List.range t.order) mx
    maxThread ow t es mx

/-- The merge of one thread's maxima into `ret` (impl/tensor.impl.hpp 411–412). -/
def maxMerge (mx : List Nat) : List Nat → List Nat → M (List Nat)
  | [], ret => .ok ret
  | idx :: is, ret => do
    let v ← load mx idx
    let old ← load ret idx
    let ret ← storeMax ret idx v old
    maxMerge mx is ret

/-- The merge over all threads (impl/tensor.impl.hpp 410–414). -/
def maxMergeAll (order : Nat) : List (List Nat) → List Nat → M (List Nat)
  | [], ret => .ok ret
  | mx :: ms, ret => do
    let ret ← maxMerge mx (List.range order) ret
    maxMergeAll order ms ret

/-- `Tensor::max_labels()` (impl/tensor.impl.hpp 373–419): the threads write disjoint memory, so only the assignment
of iterations matters. -/
def maxLabels {W : Type} (ow T : Nat) (t : Tensor W) : R (List Nat) := do
  let its ← R.choose (OmpFor t.m T)
  let ms ← R.lift (mapE (fun l => maxThread ow t l (List.replicate t.order 0)) its)
  R.lift (maxMergeAll t.order ms (List.replicate t.order 0))

end Pigo
