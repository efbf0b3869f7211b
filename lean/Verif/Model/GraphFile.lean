import Verif.Model.Csr

/-!
# Reading `.graph` files: `CSR::read_graph_` (impl/csr.impl.hpp 255–424)

The label type has `lw` bits, the ordinal type `ow` bits (unsigned); the CSR has no weights (a weighted CSR throws before,
impl/csr.impl.hpp 30–43).
-/

namespace Pigo

section
variable (μ : Mapping)

/-- The header (impl/csr.impl.hpp 271–276): `read_n`, `read_m` and the reader at the first integer after the header line. -/
def graphHeader (lw ow : Nat) (r : Reader) : M (Nat × Nat × Reader) := do
  let r ← moveToFirstInt μ r
  let (n, r) ← readInt μ (wrapU lw) r
  let r ← moveToNextInt μ r
  let (m, r) ← readInt μ (wrapU ow) r
  let r ← moveToEol μ r
  let r ← moveToNextInt μ r
  .ok (n, m, r)

/-- `if (tid != 0) rs.move_to_next_int(); else rs.move_to_first_int();` (impl/csr.impl.hpp 306–309) -/
def graphStart (rs : Reader) (tid : Nat) : M Reader := if tid ≠ 0 then moveToNextInt μ rs else moveToFirstInt μ rs

/-- The part of the file of thread `tid` (impl/csr.impl.hpp 297–313) -/
def graphRegion (r : Reader) (T tid : Nat) : M Reader := do
  let re ← moveToNextInt μ (r.plus ((tid + 1) * r.size / T))
  let rs ← graphStart μ (r.plus (tid * r.size / T)) tid
  .ok (rs.smallerEnd re)

/-- The counters of pass 1 (impl/csr.impl.hpp 317–319): `tid_nls`, `tid_ints`, `my_have_zero`. -/
structure GCount where
  nls : Nat
  ints : Nat
  zero : Bool
  deriving DecidableEq, Repr

/-- One iteration of pass 1 (impl/csr.impl.hpp 320–330) -/
def graphCount (c : GCount) (r : Reader) : M (GCount × Reader) := do
  let atNl ← atNlOrEol μ r
  let c := if atNl then { c with nls := c.nls + 1 } else { c with ints := c.ints + 1 }
  let z ← atZero μ r
  let r ← moveToNextIntOrNl μ r
  .ok ({ c with zero := c.zero || z }, r)

/-- Pass 1 of a thread (impl/csr.impl.hpp 315–333) -/
def graphCountAll (rs : Reader) : M GCount := do
  let (c, _) ← whileGood (graphCount μ) (rs.e - rs.d) ⟨0, 0, false⟩ rs
  .ok c

/-- A store to `offsets_` (left) or `endpoints_` (right). -/
abbrev GAct := (Nat × Nat) ⊕ (Nat × Nat)

/-- The state of pass 2 (impl/csr.impl.hpp 374–382): `offset_pos`, `endpoint_pos`, `my_max` and the stores done. -/
structure GSt where
  off : Nat
  ep : Nat
  mx : Nat
  acts : List GAct
  deriving DecidableEq, Repr

/-- `if (!rs_p2.at_nl_or_eol()) rs_p2.move_to_next_int_or_nl();` (impl/csr.impl.hpp 400–401) -/
def graphSkip (r : Reader) : M Reader := do
  let atNl ← atNlOrEol μ r
  if atNl then .ok r else moveToNextIntOrNl μ r

/-- One iteration of pass 2 (impl/csr.impl.hpp 388–402), after the test for trailing data.
`++offset_pos` and `endpoint_pos++` are computed in the types `L` and `O`. -/
def graphSet (lw ow : Nat) (s : GSt) (r : Reader) : M (GSt × Reader) := do
  let atNl ← atNlOrEol μ r
  if atNl then do
    let off := (s.off + 1) % 2 ^ lw
    let r ← moveToNextIntOrNl μ r
    .ok ({ s with off := off, acts := s.acts ++ [.inl (off, s.ep)] }, r)
  else do
    let (v, r) ← readInt μ (wrapU lw) r
    let r ← graphSkip μ r
    .ok ({ s with ep := (s.ep + 1) % 2 ^ ow, mx := max s.mx v, acts := s.acts ++ [.inr (s.ep, v)] }, r)

/-- The loop of pass 2 (impl/csr.impl.hpp 384–403): `while (rs_p2.good()) { if (offset_pos >= n_) break; … }`. -/
def graphSetN (lw ow n : Nat) : Nat → GSt → Reader → M GSt
  | 0, s, r => if r.good && s.off < n then .error .fuel else .ok s
  | k+1, s, r =>
    if r.good && s.off < n then do
      let (s, r) ← graphSet μ lw ow s r
      graphSetN lw ow n k s r
    else .ok s

/-- Pass 2 of thread `p.1` with reader `p.2` (impl/csr.impl.hpp 372–404). `base` is `have_zero ? 0 : 1`; the offsets are the
prefix sums. -/
def graphSetAll (lw ow n base : Nat) (nlOffs intOffs : List Nat) (p : Nat × Reader) : M GSt :=
  graphSetN μ lw ow n (p.2.e - p.2.d)
    { off := (if p.1 > 0 then nlOffs.getD (p.1 - 1) 0 else base) % 2 ^ lw
      ep := (if p.1 > 0 then intOffs.getD (p.1 - 1) 0 else 0) % 2 ^ ow
      mx := 0, acts := [] } p.2

end

/-- What the threads of `read_graph_` do. -/
structure GPlan where
  readN : Nat
  readM : Nat
  n : Nat
  m : Nat
  base : Nat
  threads : List (List GAct)
  colMax : Nat
  deriving DecidableEq, Repr

/-- `read_graph_` up to the stores (impl/csr.impl.hpp 255–404): header, split, pass 1, prefix sums, pass 2; and the maximum of
the labels (413–417).
`have_zeros` is a `std::vector<bool>` whose elements share words: concurrent `have_zeros[tid] = true` (332) race, and one of
two may be lost; as the last write sets its own bit and only the disjunction is used (339–345), the model takes `any`. -/
def graphPlan (μ : Mapping) (lw ow T : Nat) (r : Reader) : M GPlan := do
  let (readN, readM, r) ← graphHeader μ lw ow r
  let regions ← mapE (graphRegion μ r T) (List.range T)
  let counts ← mapE (graphCountAll μ) regions
  let base := if counts.any (·.zero) then 0 else 1
  let nlOffs := prefixSums base (counts.map (·.nls))
  let intOffs := prefixSums 0 (counts.map (·.ints))
  let m := intOffs.getD (T - 1) 0 % 2 ^ ow
  let n := nlOffs.getD (T - 1) 0 % 2 ^ lw
  let sts ← mapE (graphSetAll μ lw ow n base nlOffs intOffs) ((List.range T).zip regions)
  .ok { readN := readN, readM := readM, n := n, m := m, base := base, threads := sts.map (·.acts)
        colMax := sts.foldl (fun a s => max a s.mx) 0 }

/-- The stores of the allocating thread (impl/csr.impl.hpp 364–367): `offsets_[0] = 0`, `offsets_[1] = 0` if 1-based,
`offsets_[n_] = m_`. -/
def graphInit (base n m : Nat) (offsets : List Nat) : M (List Nat) := do
  let o ← runActs storeAct (if base = 1 then [(0, 0), (1, 0)] else [(0, 0)]) offsets
  store o n m

/-- The checks and fields at the end (impl/csr.impl.hpp 406–418): `m_ == 2*read_m` (in type `O`, promoted to `int` if narrower) or `m_ == read_m`, and
`n_ >= read_n`; then `n_ = read_n`. `nrows_` keeps the counted rows (363). -/
def graphFinish {W : Type} (lw ow : Nat) (p : GPlan) (offsets endpoints : List Nat) : M (Csr W) :=
  if p.m ≠ twice ow p.readM ∧ p.m ≠ p.readM then .error .error
  else if p.n < p.readN then .error .error
  else .ok { offsets := offsets, endpoints := endpoints, weights := [], n := p.readN, m := p.m, nrows := p.n
             ncols := (p.colMax + 1) % 2 ^ lw }

/-- `CSR::read_graph_` (impl/csr.impl.hpp 255–424) with `T` threads. -/
def readGraph {W : Type} (lw ow T : Nat) (μ : Mapping) (r : Reader) : R (Csr W) := do
  let p ← R.lift (graphPlan μ lw ow T r)
  let jo ← R.any (Nat → Nat)
  let je ← R.any (Nat → Nat)
  let o ← R.lift (graphInit p.base p.n p.m (alloc jo (plusOne lw p.n)))
  let (offsets, endpoints) ← R.par (sumStep storeAct storeAct) p.threads (o, alloc je p.m)
  R.lift (graphFinish lw ow p offsets endpoints)

end Pigo
