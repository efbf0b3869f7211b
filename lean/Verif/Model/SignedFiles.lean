import Verif.Model.GraphFile
import Verif.Model.CsrOps
import Verif.Model.Tensor

/-!
# Signed label and ordinal types: `.graph` files, CSR to COO, tensors

The functions of `Model/GraphFile`, `Model/CsrOps` and `Model/Tensor` with signed types; same conventions as in
`Model/Signed`: types of at least 32 bits, an arithmetic result or a converted `size_t` that does not fit is
`Fault.overflow`.
-/

namespace Pigo

variable {W : Type}

/-! ## `CSR::read_graph_` -/

section
variable (μ : Mapping)

/-- The header (impl/csr.impl.hpp 271–276) with signed types. -/
def sGraphHeader (lw ow : Nat) (r : Reader) : M (Nat × Nat × Reader) := do
  let r ← moveToFirstInt μ r
  let (n, r) ← readInt μ (wrapS lw) r
  let r ← moveToNextInt μ r
  let (m, r) ← readInt μ (wrapS ow) r
  let r ← moveToEol μ r
  let r ← moveToNextInt μ r
  .ok (n, m, r)

/-- One iteration of pass 2 (impl/csr.impl.hpp 388–402) with signed types: `++offset_pos` and `endpoint_pos++` may overflow. -/
def sGraphSet (lw ow : Nat) (s : GSt) (r : Reader) : M (GSt × Reader) := do
  let atNl ← atNlOrEol μ r
  if atNl then do
    let off ← wrapS lw (s.off + 1)
    let r ← moveToNextIntOrNl μ r
    .ok ({ s with off := off, acts := s.acts ++ [.inl (off, s.ep)] }, r)
  else do
    let (v, r) ← readInt μ (wrapS lw) r
    let ep ← wrapS ow (s.ep + 1)
    let r ← graphSkip μ r
    .ok ({ s with ep := ep, mx := max s.mx v, acts := s.acts ++ [.inr (s.ep, v)] }, r)

/-- The loop of pass 2 (impl/csr.impl.hpp 384–403). -/
def sGraphSetN (lw ow n : Nat) : Nat → GSt → Reader → M GSt
  | 0, s, r => if r.good && s.off < n then .error .fuel else .ok s
  | k+1, s, r =>
    if r.good && s.off < n then do
      let (s, r) ← sGraphSet μ lw ow s r
      sGraphSetN lw ow n k s r
    else .ok s

/-- Pass 2 of thread `p.1` with reader `p.2` (impl/csr.impl.hpp 372–404): the prefix sums are converted to the signed types. -/
def sGraphSetAll (lw ow n base : Nat) (nlOffs intOffs : List Nat) (p : Nat × Reader) : M GSt := do
  let off ← wrapS lw (if p.1 > 0 then nlOffs.getD (p.1 - 1) 0 else base)
  let ep ← wrapS ow (if p.1 > 0 then intOffs.getD (p.1 - 1) 0 else 0)
  sGraphSetN μ lw ow n (p.2.e - p.2.d) { off := off, ep := ep, mx := 0, acts := [] } p.2

end

/-- `read_graph_` up to the stores (impl/csr.impl.hpp 255–404) with signed types: `m_` (360) and `n_` (361) are converted from
`size_t`. -/
def sGraphPlan (μ : Mapping) (lw ow T : Nat) (r : Reader) : M GPlan := do
  let (readN, readM, r) ← sGraphHeader μ lw ow r
  let regions ← mapE (graphRegion μ r T) (List.range T)
  let counts ← mapE (graphCountAll μ) regions
  let base := if counts.any (·.zero) then 0 else 1
  let nlOffs := prefixSums base (counts.map (·.nls))
  let intOffs := prefixSums 0 (counts.map (·.ints))
  let m ← wrapS ow (intOffs.getD (T - 1) 0)
  let n ← wrapS lw (nlOffs.getD (T - 1) 0)
  let sts ← mapE (sGraphSetAll μ lw ow n base nlOffs intOffs) ((List.range T).zip regions)
  .ok { readN := readN, readM := readM, n := n, m := m, base := base, threads := sts.map (·.acts)
        colMax := sts.foldl (fun a s => max a s.mx) 0 }

/-- The checks and fields at the end (impl/csr.impl.hpp 406–418) with signed types: `2*read_m` and `col_max+1` may overflow. -/
def sGraphFinish (lw ow : Nat) (p : GPlan) (offsets endpoints : List Nat) : M (Csr W) := do
  let k ← wrapS ow (2 * p.readM)
  if p.m ≠ k ∧ p.m ≠ p.readM then .error .error
  else if p.n < p.readN then .error .error
  else do
    let nc ← wrapS lw (p.colMax + 1)
    .ok { offsets := offsets, endpoints := endpoints, weights := [], n := p.readN, m := p.m, nrows := p.n, ncols := nc }

/-- `CSR::read_graph_` (impl/csr.impl.hpp 255–424) with `T` threads and signed types; `n_+1` (73) may overflow.  (The code
allocates before pass 2; an overflow there is reported after it here.) -/
def sReadGraph (lw ow T : Nat) (μ : Mapping) (r : Reader) : R (Csr W) := do
  let p ← R.lift (sGraphPlan μ lw ow T r)
  let k ← R.lift (wrapS lw (p.n + 1))
  let jo ← R.any (Nat → Nat)
  let je ← R.any (Nat → Nat)
  let o ← R.lift (graphInit p.base p.n p.m (alloc jo k))
  let (offsets, endpoints) ← R.par (sumStep storeAct storeAct) p.threads (o, alloc je p.m)
  R.lift (sGraphFinish lw ow p offsets endpoints)

/-! ## `COO(CSR&)` -/

/-- `COO::convert_csr_` (impl/coo.impl.hpp 65–129) with signed types: `m_ *= 2` (72) may overflow.  `coo_cur` is a `size_t`,
and `v+1` is at most `n_`. -/
def sConvertCsr (ow T : Nat) (stor : Storage) (cfg : Cfg) (wgt : Bool) (c : Csr W) : R (Coo W) := do
  let n := c.n
  let nrows ← R.any Nat
  let ncols ← R.any Nat
  let m ← R.lift (if cfg.sym && !cfg.ut then wrapS ow (c.m * 2)
    else if !cfg.sym && cfg.ut then .error .nyi else .ok c.m)
  if cfg.sl then R.lift (.error .nyi) else do
    let j ← R.any (Junk W)
    let its ← R.choose (OmpDyn n T)
    let threads ← R.lift (mapE (fun vs => mapE (csrRow stor cfg wgt c) vs) its)
    let mem ← R.par stepAct (threads.map List.flatten) (allocCoo wgt j m)
    pure { x := mem.x, y := mem.y, w := mem.w, n := n, m := m, nrows := nrows, ncols := ncols }

/-! ## Tensors -/

section
variable (μ : Mapping)

/-- The order found by `Tensor::read_el_` (impl/tensor.impl.hpp 117–122) with a signed `O`. -/
def sTensorOrder (ow : Nat) (wgt : Bool) (r : Reader) : M Nat := do
  let r ← moveToFirstInt μ r
  let (ct, _) ← countSpaces μ r
  let o ← wrapS ow ct
  if wgt then .ok o else wrapS ow (o + 1)

variable (lw : Nat) (wk : WKind W)

/-- The loop over the coordinates when counting (impl/tensor.impl.hpp 65–72) with a signed label type. -/
def sSkipCoords : Nat → Reader → M (Bool × Reader)
  | 0, r => .ok (true, r)
  | k+1, r => do
    let r ← if wk.wgt then moveToNextInt μ r else do
      let (_, r) ← readInt μ (wrapS lw) r
      .ok r
    if !r.good then .ok (false, r) else sSkipCoords k r

/-- Counting an entry (impl/tensor.impl.hpp 60–77). -/
def sTensorCount (order pos : Nat) (r : Reader) : M (Nat × Reader) := do
  let (ok, r) ← sSkipCoords μ lw wk order r
  if !ok then .ok (pos, r) else do
    let r ← moveToEol μ r
    let r ← moveToNextInt μ r
    .ok (pos + 1, r)

/-- The loop over the coordinates when setting (impl/tensor.impl.hpp 83–87) with a signed label type; the index is a `size_t`. -/
def sReadCoords (order pos : Nat) : Nat → Nat → List (TAct W) → Reader → M (Bool × List (TAct W) × Reader)
  | 0, _, acts, r => .ok (true, acts, r)
  | k+1, idx, acts, r => do
    let (v, r) ← readInt μ (wrapS lw) r
    if !r.good then .ok (false, acts, r) else sReadCoords order pos k (idx + 1) (acts ++ [.setC (pos * order + idx) v]) r

/-- Setting an entry (impl/tensor.impl.hpp 79–95). -/
def sTensorSet (order : Nat) (st : Nat × List (TAct W)) (r : Reader) : M ((Nat × List (TAct W)) × Reader) := do
  let (ok, acts, r) ← sReadCoords μ lw order st.1 order 0 st.2 r
  if !ok then .ok ((st.1, acts), r) else do
    let (w, r) ← wk.read μ r
    let acts := if wk.wgt then acts ++ [.setW st.1 w] else acts
    let r ← moveToEol μ r
    let r ← moveToNextInt μ r
    .ok ((st.1 + 1, acts), r)

/-- Pass 1 of a thread (impl/tensor.impl.hpp 161–166) -/
def sTensorCountAll (order : Nat) (rs : Reader) : M Nat := do
  let (c, _) ← whileGood (sTensorCount μ lw wk order) (rs.e - rs.d) 0 rs
  .ok c

/-- Pass 2 of thread `p.1` with reader `p.2` (impl/tensor.impl.hpp 187–195); `coord_pos` is a `size_t`. -/
def sTensorSetAll (order : Nat) (offs : List Nat) (p : Nat × Reader) : M (List (TAct W)) := do
  let (st, _) ← whileGood (sTensorSet μ lw wk order) (p.2.e - p.2.d) (startOf offs p.1, []) p.2
  .ok st.2

end

/-- `Tensor::read_el_` up to the stores (impl/tensor.impl.hpp 103–198) with signed types: `m_` is converted from `size_t`. -/
def sTensorPlan (μ : Mapping) (lw ow : Nat) (wk : WKind W) (T : Nat) (r : Reader) : M (TPlan W) := do
  let order ← sTensorOrder μ ow wk.wgt r
  let regions ← mapE (elRegion μ r T) (List.range T)
  let counts ← mapE (sTensorCountAll μ lw wk order) regions
  let offs := prefixSums 0 counts
  let acts ← mapE (sTensorSetAll μ lw wk order offs) ((List.range T).zip regions)
  let m ← wrapS ow (offs.getD (T - 1) 0)
  .ok { order := order, m := m, threads := acts }

/-- `Tensor::read_el_` (impl/tensor.impl.hpp 103–198) with signed types: the product `order_*m_` (52) may overflow.  (The code
allocates before pass 2; an overflow there is reported after it here.) -/
def sReadTensorEl (μ : Mapping) (lw ow : Nat) (wk : WKind W) (T : Nat) (r : Reader) : R (Tensor W) := do
  let p ← R.lift (sTensorPlan μ lw ow wk T r)
  let k ← R.lift (wrapS ow (p.order * p.m))
  let jc ← R.any (Nat → Nat)
  let jw ← R.any (Nat → W)
  let mem ← R.par stepT p.threads { c := alloc jc k, w := if wk.wgt then alloc jw p.m else [] }
  pure { c := mem.c, w := mem.w, order := p.order, m := p.m }

/-- `Tensor::read_` (impl/tensor.impl.hpp 32–48) with signed types; the binary format is read by the function for the unsigned
types of the same size (its products are not checked). -/
def sReadTensor (P : Params W) (μ : Mapping) (fn : List Byte) (p : Nat) (ft : FileType) : R (Tensor W) := do
  let ft ← R.lift (usedType μ fn p ft)
  if ft = .edgeList then sReadTensorEl μ (8 * P.lb) (8 * P.ob) P.wk P.T (readerAt μ p)
  else if ft = .tensorBin then readBinTensor P.T P.lb P.ob P.wk.wgt P.cw μ p
  else R.lift (.error .nyi)

/-- The inner loop of `max_labels` (impl/tensor.impl.hpp 399–402): the index `e*order_+idx` may overflow. -/
def sMaxEntry (ow : Nat) (t : Tensor W) (e : Nat) : List Nat → List Nat → M (List Nat)
  | [], mx => .ok mx
  | idx :: is, mx => do
    let k ← wrapS ow (e * t.order + idx)
    let v ← load t.c k
    let old ← load mx idx
    let mx ← storeMax mx idx v old
    sMaxEntry ow t e is mx

/-- The loop of one thread over its entries (impl/tensor.impl.hpp 393–404). -/
def sMaxThread (ow : Nat) (t : Tensor W) : List Nat → List Nat → M (List Nat)
  | [], mx => .ok mx
  | e :: es, mx => do
    let mx ← sMaxEntry ow t e (List.range t.order) mx
    sMaxThread ow t es mx

/-- `Tensor::max_labels()` (impl/tensor.impl.hpp 373–419) with signed types. -/
def sMaxLabels (ow T : Nat) (t : Tensor W) : R (List Nat) := do
  let its ← R.choose (OmpFor t.m T)
  let ms ← R.lift (mapE (fun l => sMaxThread ow t l (List.replicate t.order 0)) its)
  R.lift (maxMergeAll t.order ms (List.replicate t.order 0))

end Pigo
