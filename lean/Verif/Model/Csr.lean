import Verif.Model.Coo
import Verif.Base.Nondet

/-!
# CSR objects and the conversions between COO and CSR

impl/csr.impl.hpp 69–253 (`convert_coo_`) and impl/coo.impl.hpp 59–129 (`convert_csr_`).

The label type `L` has `lw` bits, the ordinal type `O` has `ow` bits; the label, ordinal and weight types
of the source and of the result are taken to be the same here (the casts `(W)val`, `(nL)v` are identities); `Model/Retype` models
conversions between different types.
The storage objects (vector, shared_ptr, raw pointer) are arrays; `Fault.oob` is an access outside.
-/

namespace Pigo

variable {W : Type}

/-- A CSR object (csr.hpp 67–94): `offsets_`, `endpoints_`, `weights_`, `n_`, `m_`, `nrows_`, `ncols_`. -/
structure Csr (W : Type) where
  offsets : List Nat
  endpoints : List Nat
  weights : List W
  n : Nat
  m : Nat
  nrows : Nat
  ncols : Nat
  deriving DecidableEq, Repr

/-- Contents of freshly allocated CSR arrays. -/
structure CsrJunk (W : Type) where
  offsets : Nat → Nat
  endpoints : Nat → Nat
  weights : Nat → W

/-- A load `a[i]`; outside of the array it is a fault. -/
def load {α : Type} (a : List α) (i : Nat) : M α :=
  match a[i]? with
  | some v => .ok v
  | none => .error .oob

/-- `n_+1` (or `v+1`) for a value of the label type of `lw` bits: types narrower than `int` are promoted, the other ones
wrap (impl/csr.impl.hpp 73, 436, 474, 513; impl/graph.impl.hpp 93). -/
def plusOne (lw n : Nat) : Nat := if lw < 32 then n + 1 else (n + 1) % 2 ^ lw

/-- First label of the block of thread `tid`: `(tid*n_)/num_threads` (impl/csr.impl.hpp 157, 653). -/
def vStart (n T tid : Nat) : Nat := tid * n / T

/-- The elements `v_start ≤ c < v_end` of an array (the loops at impl/csr.impl.hpp 182–186, 211–214). -/
def slice {α : Type} (l : List α) (n T tid : Nat) : List α :=
  (l.drop (vStart n T tid)).take (vStart n T (tid + 1) - vStart n T tid)

/-- The values stored by `offsets_[c] = cur_offset; cur_offset += label_degs[c];`
(impl/csr.impl.hpp 211–214). -/
def runSums : Nat → List Nat → List Nat
  | _, [] => []
  | acc, d :: ds => acc :: runSums (acc + d) ds

/-- `#pragma omp atomic ++all_degs[x[e]]` (impl/csr.impl.hpp 171–174); the degree must fit in `O`. -/
def incAct (ow : Nat) (x : List Nat) (e : Nat) (degs : List Nat) : M (List Nat) := do
  let v ← load x e
  let d ← load degs v
  if d + 1 < 2 ^ ow then store degs v (d + 1) else .error .overflow

/-- The stores of impl/csr.impl.hpp 211–221 (and 685–695): every thread assigns the offsets of its block
of labels from its start, and some thread (`omp single`) patches `offsets_[n_] = m_`; the latter is
modelled as a thread of its own, i.e. it may happen at any point. -/
def offsetThreads (n m T : Nat) (degs starts : List Nat) : List (List (Nat × Nat)) :=
  (List.range T).map (fun tid => blockActs (vStart n T tid) (runSums (startOf starts tid) (slice degs n T tid)))
    ++ [[(n, m)]]

/-- Shared state of the scatter loop: the remaining degrees, the captured `this_offset_pos` of each
iteration (a local variable of the iteration), and the arrays written. -/
structure Scatter (W : Type) where
  degs : List Nat
  pos : Nat → Option Nat
  endpoints : List Nat
  weights : List W

/-- The atomic steps of one iteration of the scatter loop. -/
inductive ScatAct
  /-- the atomic capture (impl/csr.impl.hpp 237–241) -/
  | cap (e : Nat)
  /-- the store to `endpoints_` (impl/csr.impl.hpp 242–243) -/
  | wr (e : Nat)
  /-- the store to `weights_` (impl/csr.impl.hpp 244) -/
  | ww (e : Nat)
  deriving DecidableEq, Repr

/-- `this_offset = offsets_[src+1] - this_offset_pos` (impl/csr.impl.hpp 242) in the unsigned type `O`. -/
def scatSlot (x offsets : List Nat) (s : Scatter W) (e : Nat) : M Nat := do
  let src ← load x e
  let off ← load offsets (src + 1)
  match s.pos e with
  | none => .error .oob
  | some p => if p ≤ off then .ok (off - p) else .error .overflow

/-- One step of the scatter loop (impl/csr.impl.hpp 231–245). -/
def scatStep (x y : List Nat) (w : List W) (offsets : List Nat) : ScatAct → Scatter W → M (Scatter W)
  | .cap e, s => do
    let src ← load x e
    let d ← load s.degs src
    if d = 0 then .error .overflow
    else do
      let degs ← store s.degs src (d - 1)
      .ok { s with degs := degs, pos := fun i => if i = e then some d else s.pos i }
  | .wr e, s => do
    let dst ← load y e
    let p ← scatSlot x offsets s e
    let ep ← store s.endpoints p dst
    .ok { s with endpoints := ep }
  | .ww e, s => do
    let v ← load w e
    let p ← scatSlot x offsets s e
    let ws ← store s.weights p v
    .ok { s with weights := ws }

/-- The steps of iteration `coo_pos = e` (impl/csr.impl.hpp 232–245); `copy_weight` only if weighted. -/
def scatIter (wgt : Bool) (e : Nat) : List ScatAct := [.cap e, .wr e] ++ (if wgt then [.ww e] else [])

/-- The first phases of `CSR::convert_coo_` (impl/csr.impl.hpp 139–190): zero the degrees; count them with atomic
increments; copy them to `label_degs` and store the per-thread sums to `start_offsets`.
The sums are taken in unbounded arithmetic: they are at most `m_`, which is an `O`. -/
def countDegrees (ow T n m : Nat) (x : List Nat) : R (List Nat × List Nat) := do
  let junkLabel ← R.any (Nat → Nat)
  let junkStart ← R.any (Nat → Nat)
  let junkAll ← R.any (Nat → Nat)
  -- all_degs[v] = 0
  let its ← R.choose (OmpFor n T)
  let all ← R.par storeAct (its.map (fun vs => vs.map (fun v => (v, 0)))) (alloc junkAll n)
  -- ++all_degs[x]
  let its ← R.choose (OmpFor m T)
  let all ← R.par (incAct ow x) its all
  -- label_degs[c] = all_degs[c]; start_offsets[tid] = my_degs
  R.par (sumStep storeAct storeAct)
    ((List.range T).map (fun tid =>
      (blockActs (vStart n T tid) (slice all n T tid)).map Sum.inl ++ [Sum.inr (tid, (slice all n T tid).sum)]))
    (alloc junkLabel n, alloc junkStart T)

/-- `CSR::convert_coo_` (impl/csr.impl.hpp 106–253) with `T` threads.
`allocate_` (69–74) makes `n_+1` offsets, computed in the label type.
Phases, separated by barriers: the degrees (`countDegrees`); prefix sum (`omp single`); assign the offsets; scatter the
entries. -/
def convertCoo (lw ow T : Nat) (wgt : Bool) (coo : Coo W) : R (Csr W) := do
  let n := coo.n
  let m := coo.m
  let j ← R.any (CsrJunk W)
  let (label, starts) ← countDegrees ow T n m coo.x
  -- prefix sum
  let starts := prefixSums 0 starts
  -- offsets_
  let offsets ← R.par storeAct (offsetThreads n m T label starts) (alloc j.offsets (plusOne lw n))
  -- scatter
  let its ← R.choose (OmpFor m T)
  let s ← R.par (scatStep coo.x coo.y coo.w offsets) (its.map (fun es => es.flatMap (scatIter wgt)))
    { degs := label, pos := fun _ => none, endpoints := alloc j.endpoints m,
      weights := if wgt then alloc j.weights m else [] }
  pure { offsets := offsets, endpoints := s.endpoints, weights := s.weights, n := n, m := m,
         nrows := coo.nrows, ncols := coo.ncols }

end Pigo
