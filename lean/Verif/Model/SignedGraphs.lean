import Verif.Model.Signed
import Verif.Model.Graph
import Verif.Model.CsrOps

/-!
# Signed label and ordinal types: graphs, matrices, neighbors, removing duplicates

The operations of `Model/Graph` and `new_csr_without_dups` with signed types: an arithmetic result that the type cannot hold is
undefined behaviour, the outcome `.error .overflow` (`wrapS`).
-/

namespace Pigo

variable {W : Type}

/-- `DiGraph::from_coo_` (graph.hpp 209–237) with signed types.  The copy (coo.hpp 174–198) counts up to `m_` only. -/
def sFromCoo (lw ow T : Nat) (wgt : Bool) (coo : Coo W) : R (DiGraph W) := do
  let copy ← copyCoo T wgt coo
  let inG ← sConvertCoo lw ow T wgt (transposeCoo copy)
  let outG ← sConvertCoo lw ow T wgt coo
  pure { inG := inG, outG := outG }

/-- `DiGraph::read_` (impl/graph.impl.hpp 22–61) with signed types; binary files as in `sReadCsr`. -/
def sReadDiGraph (P : Params W) (μ : Mapping) (fn : List Byte) (ft : FileType) : R (DiGraph W) := do
  let ft' ← R.lift (usedType μ fn 0 ft)
  if ft' = .digraphBin then readDiGraphBin P μ fn 0
  else do
    let coo ← sReadCoo P {} μ fn 0 ft
    sFromCoo (8 * P.lb) (8 * P.ob) P.T P.wk.wgt coo

/-- `Matrix::from_coo_` (matrix.hpp 128–156) with signed types. -/
def sMatrixFromCoo (lw ow T : Nat) (wgt : Bool) (coo : Coo W) : R (Matrix W) := do
  let copy ← copyCoo T wgt coo
  let csc ← sConvertCoo lw ow T wgt (transposeCoo copy)
  let csr ← sConvertCoo lw ow T wgt coo
  pure { csr := csr, csc := csc }

/-- `Matrix(std::string)` (matrix.hpp 189–197) with signed types. -/
def sReadMatrix (P : Params W) (μ : Mapping) (fn : List Byte) : R (Matrix W) := do
  let coo ← sReadCoo P {} μ fn 0 .auto
  sMatrixFromCoo (8 * P.lb) (8 * P.ob) P.T P.wk.wgt coo

/-- A range-for loop over an `EdgeIt` (graph.hpp 21–71) with a signed ordinal: `++pos` may overflow. -/
def sIterate (ow : Nat) (ep : List Nat) : Nat → Nat → Nat → M (List Nat)
  | 0, _, _ => .error .fuel
  | fuel + 1, pos, stop =>
    if pos = stop then .ok [] else do
      let v ← load ep pos
      let pos ← wrapS ow (pos + 1)
      let vs ← sIterate ow ep fuel pos stop
      .ok (v :: vs)

/-- `for (auto u : g.neighbors(v))` (graph.hpp 135–138) with signed types. -/
def sNeighbors (lw ow : Nat) (g : Csr W) (v : Nat) : M (List Nat) := do
  let s ← neighborStart g v
  let e ← sNeighborEnd lw g v
  sIterate ow g.endpoints (2 ^ ow) s e

/-- `BaseGraph::degree` (graph.hpp 126–128) with signed types: an `int`, negative if the offsets decrease.  The difference of two
offsets that are not negative cannot overflow. -/
def sDegree (lw : Nat) (g : Csr W) (v : Nat) : M Int := do
  let e ← sNeighborEnd lw g v
  let s ← neighborStart g v
  .ok ((e : Int) - (s : Int))

/-- The degree of `v` without duplicates (impl/csr.impl.hpp 584–606) with signed types: `++new_deg` may overflow. -/
def sDupDeg (lw : Nat) (c : Csr W) (v : Nat) : M Nat := do
  let s ← load c.offsets v
  let e ← load c.offsets (v + 1)
  let us ← loadRange c.endpoints s e
  match us with
  | [] => .ok 0
  | u :: us => wrapS lw (countRuns u 1 us)

/-- `CSR::new_csr_without_dups` (impl/csr.impl.hpp 571–718) with signed types.  The degrees, `new_m` (582, 605) and `n_+1`
of `allocate_` (73) may overflow; the sums of degrees (649–677) are at most `new_m`, `v+1` at most `n_`, `n_cur` at most
`new_m`. -/
def sWithoutDups (lw ow T : Nat) (wgt : Bool) (wlt : W → W → Prop) (c : Csr W) : R (Csr W × Csr W) := do
  let c ← sortCsr T wgt wlt c
  let n := c.n
  let junkDegs ← R.any (Nat → Nat)
  let its ← R.choose (OmpDyn n T)
  let counts ← R.lift (mapE (fun vs => mapE (fun v => sDupDeg lw c v >>= fun d => .ok (v, d)) vs) its)
  let degs ← R.par storeAct counts (alloc junkDegs n)
  let newM ← R.lift (wrapS ow ((counts.map (fun t => (t.map Prod.snd).sum)).sum))
  let k ← R.lift (wrapS lw (n + 1))
  let j ← R.any (CsrJunk W)
  let junkStart ← R.any (Nat → Nat)
  let starts ← R.par storeAct ((List.range T).map (fun tid => [(tid, (slice degs n T tid).sum)])) (alloc junkStart T)
  let starts := prefixSums 0 starts
  let offsets ← R.par storeAct (offsetThreads n newM T degs starts) (alloc j.offsets k)
  let its ← R.choose (OmpDyn n T)
  let threads ← R.lift (mapE (fun vs => mapE (dupCopy wgt c offsets) vs) its)
  let (ep, ws) ← R.par (sumStep storeAct storeAct) (threads.map List.flatten)
    (alloc j.endpoints newM, if wgt then alloc j.weights newM else [])
  pure (c, { offsets := offsets, endpoints := ep, weights := ws, n := n, m := newM, nrows := c.nrows, ncols := c.ncols })

end Pigo
