import Verif.Model.CsrOps
import Verif.Model.Graph

/-!
# Conversions between objects of different template types

The constructors `CSR(COO<COOL,COOO,…,COOW,…>&)`, `COO(CSR<CL,CO,…,CW,…>&)`, `DiGraph(COO<…>&)`, `Matrix(COO<…>&)` and
`new_csr_without_dups<nL,nO,…,nw,nW,…>()` take an object whose label, ordinal and weight types differ from those of the result.
`Model/Csr`, `Model/CsrOps` and `Model/Graph` model them for equal types; here every place at which the C++ code converts a value
to the type of the result is explicit.

The result has labels of `lw` bits and ordinals of `ow` bits, unsigned: the conversion keeps the value modulo `2 ^ lw`.  The
conversion of a weight, `(W)val`, is the parameter `conv` (for unsigned integers the remainder; a conversion of floating point to
integer types that is undefined in C++ is not modelled).
-/

namespace Pigo

variable {W V : Type}

/-- `(L)v`: an integer converted to an unsigned type of `w` bits. -/
def narrow (w v : Nat) : Nat := v % 2 ^ w

/-! ## COO to CSR -/

/-- impl/csr.impl.hpp 171–174: `size_t deg_inc = get_value_<COOStorage, L>(coo_x, x_id); ++all_degs[deg_inc]`; the value is
converted to `L` (`get_value_`, pigo.hpp 708–752, returns its second template argument). -/
def incActTo (lw ow : Nat) (x : List Nat) (e : Nat) (degs : List Nat) : M (List Nat) := do
  let v ← load x e
  let d ← load degs (narrow lw v)
  if d + 1 < 2 ^ ow then store degs (narrow lw v) (d + 1) else .error .overflow

/-- `this_offset` (impl/csr.impl.hpp 233, 242); `L src` is the converted label. -/
def scatSlotTo (lw : Nat) (x offsets : List Nat) (s : Scatter V) (e : Nat) : M Nat := do
  let src ← load x e
  let off ← load offsets (narrow lw src + 1)
  match s.pos e with
  | none => .error .oob
  | some p => if p ≤ off then .ok (off - p) else .error .overflow

/-- One step of the scatter loop (impl/csr.impl.hpp 231–245): `L src`, `L dst` are converted, and `copy_weight` (76–97) stores
`(W)val`. -/
def scatStepTo (lw : Nat) (conv : W → V) (x y : List Nat) (w : List W) (offsets : List Nat) :
    ScatAct → Scatter V → M (Scatter V)
  | .cap e, s => do
    let src ← load x e
    let d ← load s.degs (narrow lw src)
    if d = 0 then .error .overflow
    else do
      let degs ← store s.degs (narrow lw src) (d - 1)
      .ok { s with degs := degs, pos := fun i => if i = e then some d else s.pos i }
  | .wr e, s => do
    let dst ← load y e
    let p ← scatSlotTo lw x offsets s e
    let ep ← store s.endpoints p (narrow lw dst)
    .ok { s with endpoints := ep }
  | .ww e, s => do
    let v ← load w e
    let p ← scatSlotTo lw x offsets s e
    let ws ← store s.weights p (conv v)
    .ok { s with weights := ws }

/-- The degrees (impl/csr.impl.hpp 139–190), as `countDegrees`. -/
def countDegreesTo (lw ow T n m : Nat) (x : List Nat) : R (List Nat × List Nat) := do
  let junkLabel ← R.any (Nat → Nat)
  let junkStart ← R.any (Nat → Nat)
  let junkAll ← R.any (Nat → Nat)
  let its ← R.choose (OmpFor n T)
  let all ← R.par storeAct (its.map (fun vs => vs.map (fun v => (v, 0)))) (alloc junkAll n)
  let its ← R.choose (OmpFor m T)
  let all ← R.par (incActTo lw ow x) its all
  R.par (sumStep storeAct storeAct)
    ((List.range T).map (fun tid =>
      (blockActs (vStart n T tid) (slice all n T tid)).map Sum.inl ++ [Sum.inr (tid, (slice all n T tid).sum)]))
    (alloc junkLabel n, alloc junkStart T)

/-- `CSR<L,O,…,W,…>::convert_coo_(COO<COOL,COOO,…,COOW,…>&)` (impl/csr.impl.hpp 106–253).  The sizes are converted when they are
assigned (111–114): `n_`, `nrows_`, `ncols_` to `L`, `m_` to `O`. -/
def convertCooTo (lw ow T : Nat) (wgt : Bool) (conv : W → V) (coo : Coo W) : R (Csr V) := do
  let n := narrow lw coo.n
  let m := narrow ow coo.m
  let j ← R.any (CsrJunk V)
  let (label, starts) ← countDegreesTo lw ow T n m coo.x
  let starts := prefixSums 0 starts
  let offsets ← R.par storeAct (offsetThreads n m T label starts) (alloc j.offsets (plusOne lw n))
  let its ← R.choose (OmpFor m T)
  let s ← R.par (scatStepTo lw conv coo.x coo.y coo.w offsets) (its.map (fun es => es.flatMap (scatIter wgt)))
    { degs := label, pos := fun _ => none, endpoints := alloc j.endpoints m,
      weights := if wgt then alloc j.weights m else [] }
  pure { offsets := offsets, endpoints := s.endpoints, weights := s.weights, n := n, m := m,
         nrows := narrow lw coo.nrows, ncols := narrow lw coo.ncols }

/-! ## CSR to COO -/

/-- Iteration `v` of `convert_csr_` (impl/coo.impl.hpp 95–127): `L new_y = *cur` converts the endpoint (a `CL`) to `L`,
`set_value_(w_, coo_cur, *cur_weight)` the weight to `W`; `offsets` are read in the type of the CSR. -/
def csrRowTo (lw : Nat) (stor : Storage) (cfg : Cfg) (wgt : Bool) (conv : W → V) (c : Csr W) (v : Nat) : M (List (Act V)) := do
  let s ← load c.offsets v
  let e ← load c.offsets (v + 1)
  let us ← loadRange c.endpoints s e
  let us := us.map (narrow lw)
  let ws ← if wgt then (loadWeights stor c.weights s e >>= fun ws => .ok (ws.map (fun w => some (conv w))))
    else .ok (List.replicate us.length none)
  .ok (csrRowActs cfg v (if cfg.sym && !cfg.ut then s * 2 else s) (us.zip ws))

/-- `COO<L,O,…,W,…>::convert_csr_(CSR<CL,CO,…,CW,…>&)` (impl/coo.impl.hpp 65–129): `n_` is converted to `L`, `m_` to `O`
before it is doubled. -/
def convertCsrTo (lw ow T : Nat) (stor : Storage) (cfg : Cfg) (wgt : Bool) (conv : W → V) (c : Csr W) : R (Coo V) := do
  let n := narrow lw c.n
  let nrows ← R.any Nat
  let ncols ← R.any Nat
  let m ← R.lift (if cfg.sym && !cfg.ut then .ok (narrow ow c.m * 2 % 2 ^ ow)
    else if !cfg.sym && cfg.ut then .error .nyi else .ok (narrow ow c.m))
  if cfg.sl then R.lift (.error .nyi) else do
    let j ← R.any (Junk V)
    let its ← R.choose (OmpDyn n T)
    let threads ← R.lift (mapE (fun vs => mapE (csrRowTo lw stor cfg wgt conv c) vs) its)
    let mem ← R.par stepAct (threads.map List.flatten) (allocCoo wgt j m)
    pure { x := mem.x, y := mem.y, w := mem.w, n := n, m := m, nrows := nrows, ncols := ncols }

/-! ## DiGraph and Matrix from a COO of other types -/

/-- `DiGraph::from_coo_(COO<…>&)` (graph.hpp 209–237): the copy and its transpose have the type of the argument. -/
def fromCooTo (lw ow T : Nat) (wgt : Bool) (conv : W → V) (coo : Coo W) : R (DiGraph V) := do
  let copy ← copyCoo T wgt coo
  let inG ← convertCooTo lw ow T wgt conv (transposeCoo copy)
  let outG ← convertCooTo lw ow T wgt conv coo
  pure { inG := inG, outG := outG }

/-- `Matrix::from_coo_(COO<…>&)` (matrix.hpp 128–156) -/
def matrixFromCooTo (lw ow T : Nat) (wgt : Bool) (conv : W → V) (coo : Coo W) : R (Matrix V) := do
  let copy ← copyCoo T wgt coo
  let csc ← convertCooTo lw ow T wgt conv (transposeCoo copy)
  let csr ← convertCooTo lw ow T wgt conv coo
  pure { csr := csr, csc := csc }

/-! ## Removing duplicates into another type -/

/-- The stores of a row into the new arrays (impl/csr.impl.hpp 696–714): `nO n_cur` wraps in `nO`; the endpoint is converted to
`nL`, the weight to `nW`. -/
def retypeAct (nlw now : Nat) (conv : W → V) : (Nat × Nat) ⊕ (Nat × W) → (Nat × Nat) ⊕ (Nat × V)
  | .inl (p, u) => .inl (narrow now p, narrow nlw u)
  | .inr (p, w) => .inr (narrow now p, conv w)

/-- Iteration `v` of the copy loop (impl/csr.impl.hpp 684–715): the weights are read if the *new* CSR is weighted (697, 708);
`new_offsets` is indexed by `(nL)v` (692). -/
def dupCopyTo (nlw now : Nat) (nw : Bool) (conv : W → V) (c : Csr W) (newOffsets : List Nat) (v : Nat) :
    M (List ((Nat × Nat) ⊕ (Nat × V))) := do
  let s ← load c.offsets v
  let e ← load c.offsets (v + 1)
  let us ← loadRange c.endpoints s e
  let ws ← if nw then (loadRange c.weights s e >>= fun ws => .ok (ws.map some))
    else .ok (List.replicate us.length none)
  let acts ← dupRow newOffsets (narrow nlw v) (us.zip ws)
  .ok (acts.map (retypeAct nlw now conv))

/-- `CSR<L,O,…,wgt,W,…>::new_csr_without_dups<nL,nO,…,nw,nW,…>()` (impl/csr.impl.hpp 571–718): the sorted original and the new CSR.
The degrees are labels (`L`, `lw` bits); `new_m` is an `nO` (`now` bits); the new CSR is made with `{(nL)n_, new_m, (nL)nrows_,
(nL)ncols_}` (610), so that its offsets array has room for `(nL)n_ + 1` values; `cur_offset` is converted to `nO` when stored
(672) at index `c`, and the last offset is stored at index `(nL)n_` (679). -/
def withoutDupsTo (lw nlw now T : Nat) (wgt nw : Bool) (wlt : W → W → Prop) (conv : W → V) (c : Csr W) : R (Csr W × Csr V) := do
  let c ← sortCsr T wgt wlt c
  let n := c.n
  let junkDegs ← R.any (Nat → Nat)
  let its ← R.choose (OmpDyn n T)
  let counts ← R.lift (mapE (fun vs => mapE (fun v => dupDeg lw c v >>= fun d => .ok (v, d)) vs) its)
  let degs ← R.par storeAct counts (alloc junkDegs n)
  let newM := narrow now (counts.map (fun t => (t.map Prod.snd).sum)).sum
  let j ← R.any (CsrJunk V)
  let junkStart ← R.any (Nat → Nat)
  let starts ← R.par storeAct ((List.range T).map (fun tid => [(tid, (slice degs n T tid).sum)])) (alloc junkStart T)
  let starts := prefixSums 0 starts
  let offsets ← R.par storeAct
    ((List.range T).map (fun tid =>
      blockActs (vStart n T tid) ((runSums (startOf starts tid) (slice degs n T tid)).map (narrow now)))
      ++ [[(narrow nlw n, newM)]])
    (alloc j.offsets (plusOne nlw (narrow nlw n)))
  let its ← R.choose (OmpDyn n T)
  let threads ← R.lift (mapE (fun vs => mapE (dupCopyTo nlw now nw conv c offsets) vs) its)
  let (ep, ws) ← R.par (sumStep storeAct storeAct) (threads.map List.flatten)
    (alloc j.endpoints newM, if nw then alloc j.weights newM else [])
  pure (c, { offsets := offsets, endpoints := ep, weights := ws, n := narrow nlw n, m := newM,
             nrows := narrow nlw c.nrows, ncols := narrow nlw c.ncols })

end Pigo
