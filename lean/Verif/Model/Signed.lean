import Verif.Model.Dispatch
import Verif.Model.Examples
import Verif.Model.SignedFiles

/-!
# Signed label and ordinal types

The same functions instantiated with signed label and ordinal types (the documentation's find_edge.cpp uses `int64_t` for
both, the documentation of `COO` allows any integer type).  Labels and counts are never negative in these functions as long as
nothing overflows, so they stay natural numbers; an arithmetic result that does not fit the signed type is `Fault.overflow`
(undefined behaviour).  The types are taken to have at least 32 bits (narrower ones are promoted to `int`, and the conversion
back is implementation defined instead of undefined), and the conversion of a `size_t` count that does not fit the signed
ordinal type, which is implementation defined, is counted as a fault as well.
-/

namespace Pigo

variable {W : Type}

section
variable (μ : Mapping) (lw : Nat) (cfg : Cfg) (wk : WKind W)

/-- `read_coord_entry_i_<…,true>::op_` with a signed label type (impl/coo.impl.hpp 229–249). -/
def sCountEntryN : Nat → Nat → Reader → M (Nat × Reader)
  | 0, _, _ => .error .fuel
  | n+1, pos, r => do
    let (x, r) ← readInt μ (wrapS lw) r
    let r ← moveToNextInt μ r
    let (y, r) ← readInt μ (wrapS lw) r
    let r ← wk.count μ r
    if !r.good then .ok (pos, r) else do
      let r ← moveToEol μ r
      let r ← moveToNextInt μ r
      if cfg.sl && x == y then sCountEntryN n pos r
      else if !cfg.sym && cfg.ut && decide (x > y) then sCountEntryN n pos r
      else .ok ((if cfg.sym && !cfg.ut && x != y then pos + 1 else pos) + 1, r)

/-- `read_coord_entry_<true>` (impl/coo.impl.hpp 318–324); the version without flags (286–297) reads no label. -/
def sCountEntry (pos : Nat) (r : Reader) : M (Nat × Reader) :=
  if cfg.plain then countEntryPlain μ pos r else sCountEntryN μ lw cfg wk (r.e - r.d + 1) pos r

/-- `read_coord_entry_i_<…,false>::op_` with a signed label type (impl/coo.impl.hpp 251–284). -/
def sSetEntryN : Nat → SetSt W → Reader → M (SetSt W × Reader)
  | 0, _, _ => .error .fuel
  | n+1, st, r => do
    let (x, r) ← readInt μ (wrapS lw) r
    let r ← moveToNextInt μ r
    let (y, r) ← readInt μ (wrapS lw) r
    let (_, st, r) ← setWgt μ wk st r
    if !r.good then .ok (st, r) else do
      let r ← moveToEol μ r
      let r ← moveToNextInt μ r
      if cfg.sl && x == y then sSetEntryN n st r
      else if !cfg.sym && cfg.ut && decide (x > y) then sSetEntryN n st r
      else
        let (x, y) := if cfg.sym && cfg.ut && decide (x > y) then (y, x) else (x, y)
        let p := st.pos
        let a1 : List (Act W) := [.setX p x, .setY p y]
        let p := p + 1
        let a2 : List (Act W) :=
          if cfg.sym && !cfg.ut && x != y then
            (if wk.wgt then [.copyW p (p - 1)] else []) ++ [.setY p x, .setX p y]
          else []
        let p := if cfg.sym && !cfg.ut && x != y then p + 1 else p
        .ok ({ pos := p, mr := upd st.mr x, mc := upd st.mc y, acts := st.acts ++ a1 ++ a2 }, r)

/-- `read_coord_entry_i_<L,O,S,false,false,false,…,false>::op_` with a signed label type (impl/coo.impl.hpp 299–316). -/
def sSetEntryPlain (st : SetSt W) (r : Reader) : M (SetSt W × Reader) := do
  let (x, r) ← readInt μ (wrapS lw) r
  let r ← moveToNextInt μ r
  let (y, r) ← readInt μ (wrapS lw) r
  let (_, st, r) ← setWgt μ wk st r
  if !r.good then .ok (st, r) else do
    let r ← moveToEol μ r
    let r ← moveToNextInt μ r
    .ok ({ pos := st.pos + 1, mr := upd st.mr x, mc := upd st.mc y,
           acts := st.acts ++ [.setX st.pos x, .setY st.pos y] }, r)

/-- `read_coord_entry_<false>` (impl/coo.impl.hpp 318–324): template selection. -/
def sSetEntry (st : SetSt W) (r : Reader) : M (SetSt W × Reader) :=
  if cfg.plain then sSetEntryPlain μ lw wk st r else sSetEntryN μ lw cfg wk (r.e - r.d + 1) st r

/-- Pass 1 of a thread (impl/coo.impl.hpp 433–440) -/
def sElCount (rs : Reader) : M Nat := do
  let (c, _) ← whileGood (sCountEntry μ lw cfg wk) (rs.e - rs.d) 0 rs
  .ok c

/-- Pass 2 of thread `p.1` with reader `p.2` (impl/coo.impl.hpp 458–468).  The private copies of `max_row` and `max_col`
start at the smallest value of the type (OpenMP `reduction(max)`) instead of 0; since the shared ones start at 0
(404–405) the reduced values are the same. -/
def sElSet (offs : List Nat) (p : Nat × Reader) : M (SetSt W) := do
  let (st, _) ← whileGood (sSetEntry μ lw cfg wk) (p.2.e - p.2.d) ({ pos := startOf offs p.1 } : SetSt W) p.2
  .ok st

end

/-- Allocation size and reductions (impl/coo.impl.hpp 452–453 and 404–405): `m_` is a signed ordinal. -/
def sElPlan (ow T : Nat) (offs : List Nat) (sts : List (SetSt W)) : M (Plan W) := do
  let m ← wrapS ow (offs.getD (T - 1) 0)
  .ok { m := m
        threads := sts.map (·.acts)
        mr := sts.foldl (fun a s => max a s.mr) 0
        mc := sts.foldl (fun a s => max a s.mc) 0 }

/-- `read_el_` up to the stores (impl/coo.impl.hpp 383–481) with signed types.  (The code allocates before pass 2; a count that
does not fit is reported after it here.) -/
def sReadElPlan (μ : Mapping) (lw ow : Nat) (cfg : Cfg) (wk : WKind W) (T : Nat) (r : Reader) : M (Plan W) := do
  let regions ← mapE (elRegion μ r T) (List.range T)
  let counts ← mapE (sElCount μ lw cfg wk) regions
  let sts ← mapE (sElSet μ lw cfg wk (prefixSums 0 counts)) ((List.range T).zip regions)
  sElPlan ow T (prefixSums 0 counts) sts

/-- End of `read_el_` (impl/coo.impl.hpp 474–480): `max_row + 1` and `max_col + 1` in the signed label type. -/
def sExecPlan (lw : Nat) (wgt : Bool) (j : Junk W) (p : Plan W) (sched : List (Act W)) : M (Coo W) := do
  let mem ← runActs stepAct sched (allocCoo wgt j p.m)
  let nrows ← wrapS lw (p.mr + 1)
  let ncols ← wrapS lw (p.mc + 1)
  .ok { x := mem.x, y := mem.y, w := mem.w, m := p.m, nrows := nrows, ncols := ncols,
        n := if nrows > ncols then nrows else ncols }

/-- An execution of `read_el_` with signed types (impl/coo.impl.hpp 383–481). -/
def SReadEl (μ : Mapping) (lw ow : Nat) (cfg : Cfg) (wk : WKind W) (T : Nat) (r : Reader) (out : M (Coo W)) : Prop :=
  match sReadElPlan μ lw ow cfg wk T r with
  | .error f => out = .error f
  | .ok p => ∃ j sched, Interleave p.threads sched ∧ out = sExecPlan lw wk.wgt j p sched

/-- Header part of `read_mm_` (impl/coo.impl.hpp 326–345) with signed types: `read_int<L>()+1` may overflow. -/
def sReadMmHeader (μ : Mapping) (lw ow : Nat) (r : Reader) : M (Nat × Nat × Nat × Reader) := do
  let ok ← atStr μ mmBanner r
  if !ok then .error .nyi else do
    let r ← moveToNextInt μ r
    let (a, r) ← readInt μ (wrapS lw) r
    let nrows ← wrapS lw (a + 1)
    let r ← moveToNextInt μ r
    let (b, r) ← readInt μ (wrapS lw) r
    let ncols ← wrapS lw (b + 1)
    let r ← moveToNextInt μ r
    let (nnz, r) ← readInt μ (wrapS ow) r
    let r ← moveToEol μ r
    let r ← moveToNextInt μ r
    .ok (nrows, ncols, nnz, r)

/-- The checks at the end of `read_mm_` (impl/coo.impl.hpp 350–380) with signed types: `2*m_` may overflow. -/
def sMmCheck (ow : Nat) (cfg : Cfg) (nrows ncols nnz : Nat) (c : Coo W) : M (Coo W) :=
  if nrows ≥ c.nrows then
    if ncols ≥ c.ncols then do
      let bad ← if cfg.sym then do
          let k ← wrapS ow (2 * c.m)
          .ok (decide (nnz > k))
        else if cfg.sl then .ok (decide (nnz > c.m)) else .ok (nnz != c.m)
      if bad then .error .error
      else .ok { c with nrows := nrows, ncols := ncols, n := if nrows > ncols then nrows else ncols }
    else .error .error
  else .error .error

/-- An execution of `read_mm_` with signed types (impl/coo.impl.hpp 326–381). -/
def SReadMm (μ : Mapping) (lw ow : Nat) (cfg : Cfg) (wk : WKind W) (T : Nat) (r : Reader) (out : M (Coo W)) : Prop :=
  match sReadMmHeader μ lw ow r with
  | .error f => out = .error f
  | .ok (nrows, ncols, nnz, r') => ∃ o, SReadEl μ lw ow cfg wk T r' o ∧ out = o.bind (sMmCheck ow cfg nrows ncols nnz)

/-- `CSR::convert_coo_` (impl/csr.impl.hpp 106–253) with signed types: `n_+1` of `allocate_` (73) and the degrees (173) may
overflow.  The other sums are at most `m_`, and `src+1` (242) is at most `n_`. -/
def sConvertCoo (lw ow T : Nat) (wgt : Bool) (coo : Coo W) : R (Csr W) := do
  let n := coo.n
  let m := coo.m
  let k ← R.lift (wrapS lw (n + 1))
  let j ← R.any (CsrJunk W)
  let (label, starts) ← countDegrees (ow - 1) T n m coo.x
  let starts := prefixSums 0 starts
  let offsets ← R.par storeAct (offsetThreads n m T label starts) (alloc j.offsets k)
  let its ← R.choose (OmpFor m T)
  let s ← R.par (scatStep coo.x coo.y coo.w offsets) (its.map (fun es => es.flatMap (scatIter wgt)))
    { degs := label, pos := fun _ => none, endpoints := alloc j.endpoints m,
      weights := if wgt then alloc j.weights m else [] }
  pure { offsets := offsets, endpoints := s.endpoints, weights := s.weights, n := n, m := m,
         nrows := coo.nrows, ncols := coo.ncols }

/-- `COO::read_` for the text formats of lists of entries (impl/coo.impl.hpp 38–42) with signed types. -/
def sReadCooText (P : Params W) (cfg : Cfg) (μ : Mapping) (p : Nat) (ft : FileType) : R (Coo W) :=
  if ft = .matrixMarket then (fun o => SReadMm μ (8 * P.lb) (8 * P.ob) cfg P.wk P.T (readerAt μ p) o : R (Coo W))
  else (fun o => SReadEl μ (8 * P.lb) (8 * P.ob) cfg P.wk P.T (readerAt μ p) o : R (Coo W))

/-- `CSR::read_` (impl/csr.impl.hpp 45–67) with signed types.  The text formats are modelled with overflow; the binary ones are
the functions for the unsigned types of the same size. -/
def sReadCsr (P : Params W) (μ : Mapping) (fn : List Byte) (p : Nat) (ft : FileType) : R (Csr W × Nat) := do
  let ft ← R.lift (usedType μ fn p ft)
  if ft = .matrixMarket ∨ ft = .edgeList then do
    let coo ← sReadCooText P {} μ p ft
    let c ← sConvertCoo (8 * P.lb) (8 * P.ob) P.T P.wk.wgt coo
    pure (c, p)
  else if ft = .graph then
    if P.wk.wgt then R.lift (.error .nyi) else do
      let c ← sReadGraph (8 * P.lb) (8 * P.ob) P.T μ (readerAt μ p)
      pure (c, p)
  else readCsr P μ fn p ft

/-- `COO::read_` (impl/coo.impl.hpp 31–57) with signed types; same restriction as `sReadCsr`. -/
def sReadCoo (P : Params W) (cfg : Cfg) (μ : Mapping) (fn : List Byte) (p : Nat) (ft : FileType) : R (Coo W) := do
  let ft ← R.lift (usedType μ fn p ft)
  if ft = .matrixMarket ∨ ft = .edgeList then sReadCooText P cfg μ p ft
  else if ft = .graph then do
    let (c, _) ← sReadCsr P μ fn p ft
    sConvertCsr (8 * P.ob) P.T P.stor cfg P.wk.wgt c
  else readCoo P cfg μ fn p ft

/-- `neighbor_end(v)` (impl/graph.impl.hpp 92–94) with a signed label type: `v+1` may overflow. -/
def sNeighborEnd (lw : Nat) (g : Csr W) (v : Nat) : M Nat := do
  let k ← wrapS lw (v + 1)
  load g.offsets k

/-- `main` of find_edge.cpp (15–49) with its signed types: the exit code. -/
def sFindEdge (P : Params Unit) (μ : Mapping) (fn : List Byte) (src dst : Int) : R Nat := do
  let g ← sReadCsr P μ fn 0 .auto
  let g := g.1
  if src ≥ g.n ∨ dst ≥ g.n then R.lift (.error .error) else do
    let g ← sortCsr P.T false (fun _ _ => False) g
    if src < 0 then R.lift (.error .oob) else do
      let s ← R.lift (neighborStart g src.toNat)
      let e ← R.lift (sNeighborEnd (8 * P.lb) g src.toNat)
      let found ← R.lift (if dst < 0 then .ok false else binarySearch g.endpoints s e dst.toNat)
      pure (if found then 0 else 2)

end Pigo
