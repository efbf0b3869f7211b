import Verif.Model.Csr

/-!
# CSR to COO, sorting, removing duplicates

impl/coo.impl.hpp 59–129 (`convert_csr_`), impl/csr.impl.hpp 530–569 (`sort`) and 571–718
(`new_csr_without_dups`).
-/

namespace Pigo

variable {W : Type}

/-- The storage types of pigo (pigo.hpp): what copying the storage object does matters in `convert_csr_`. -/
inductive Storage
  | vector | pointer | shared
  deriving DecidableEq, Repr

/-- Elements `s ≤ i < e` of an array, loaded one by one. -/
def loadRange {α : Type} (a : List α) (s e : Nat) : M (List α) := mapE (load a) (List.range' s (e - s))

/-- The weights seen through `weights` in `convert_csr_` (impl/coo.impl.hpp 88–92): `storage_weights` is a
local copy; for a vector the pointer is left dangling when the block ends, and reading it is a fault. -/
def loadWeights (stor : Storage) (ws : List W) (s e : Nat) : M (List W) :=
  if stor = .vector ∧ s < e then .error .oob else loadRange ws s e

/-- What iteration `v` of `convert_csr_` stores for the entry `u` of row `v` (impl/coo.impl.hpp 108–121):
mirrored and plain entry, the ordered entry, or the entry. -/
def csrEntry (cfg : Cfg) (v u : Nat) : List (Nat × Nat) :=
  if cfg.sym && cfg.ut then [if v > u then (u, v) else (v, u)]
  else if cfg.sym && !cfg.ut then [(u, v), (v, u)]
  else [(v, u)]

/-- The stores for the entries of a list at `pos`, `pos+1`, … with the weight `w` (if weighted). -/
def putEntry (pos : Nat) (w : Option W) : List (Nat × Nat) → List (Act W)
  | [] => []
  | (a, b) :: l => [.setX pos a, .setY pos b] ++ (match w with | some w => [.setW pos w] | none => []) ++
      putEntry (pos + 1) w l

/-- The loop over a row (impl/coo.impl.hpp 107–126). -/
def csrRowActs (cfg : Cfg) (v : Nat) : Nat → List (Nat × Option W) → List (Act W)
  | _, [] => []
  | pos, (u, w) :: l => putEntry pos w (csrEntry cfg v u) ++ csrRowActs cfg v (pos + (csrEntry cfg v u).length) l

/-- Iteration `v` of `convert_csr_` (impl/coo.impl.hpp 95–127). -/
def csrRow (stor : Storage) (cfg : Cfg) (wgt : Bool) (c : Csr W) (v : Nat) : M (List (Act W)) := do
  let s ← load c.offsets v
  let e ← load c.offsets (v + 1)
  let us ← loadRange c.endpoints s e
  let ws ← if wgt then (loadWeights stor c.weights s e >>= fun ws => .ok (ws.map some))
    else .ok (List.replicate us.length none)
  .ok (csrRowActs cfg v (if cfg.sym && !cfg.ut then s * 2 else s) (us.zip ws))

/-- `COO::convert_csr_` (impl/coo.impl.hpp 65–129), called from the constructor `COO(CSR&)` (59–63), which
does not initialise `nrows_` and `ncols_`. -/
def convertCsr (ow T : Nat) (stor : Storage) (cfg : Cfg) (wgt : Bool) (c : Csr W) : R (Coo W) := do
  let n := c.n
  let nrows ← R.any Nat
  let ncols ← R.any Nat
  let m ← R.lift (if cfg.sym && !cfg.ut then .ok (c.m * 2 % 2 ^ ow)
    else if !cfg.sym && cfg.ut then .error .nyi else .ok c.m)
  if cfg.sl then R.lift (.error .nyi) else do
    let j ← R.any (Junk W)
    let its ← R.choose (OmpDyn n T)
    let threads ← R.lift (mapE (fun vs => mapE (csrRow stor cfg wgt c) vs) its)
    let mem ← R.par stepAct (threads.map List.flatten) (allocCoo wgt j m)
    pure { x := mem.x, y := mem.y, w := mem.w, n := n, m := m, nrows := nrows, ncols := ncols }

/-! ## Sorting -/

/-- Replace the elements from position `s` by `vs`. -/
def putRange {α : Type} (a : List α) (s : Nat) (vs : List α) : List α := a.take s ++ vs ++ a.drop (s + vs.length)

/-- `std::pair`'s `operator<` on (label, weight). -/
def pairLt (wlt : W → W → Prop) (a b : Nat × W) : Prop := a.1 < b.1 ∨ (¬ b.1 < a.1 ∧ wlt a.2 b.2)

/-- `std::sort` (trusted): any function giving a sorted permutation; `srt v` is the call for row `v`. -/
def IsSort {α : Type} (lt : α → α → Prop) (srt : Nat → List α → List α) : Prop :=
  ∀ v l, (srt v l).Perm l ∧ (srt v l).Pairwise (fun a b => ¬ lt b a)

/-- Iteration `v` of `sort` (impl/csr.impl.hpp 533–567).  Taken as one step: different iterations touch
disjoint ranges. -/
def sortRow (wgt : Bool) (srtL : Nat → List Nat → List Nat) (srtP : Nat → List (Nat × W) → List (Nat × W))
    (offsets : List Nat) (v : Nat) (st : List Nat × List W) : M (List Nat × List W) := do
  let s ← load offsets v
  let e ← load offsets (v + 1)
  let us ← loadRange st.1 s e
  if wgt then do
    let ws ← loadRange st.2 s e
    let vec := srtP v (us.zip ws)
    .ok (putRange st.1 s (vec.map Prod.fst), putRange st.2 s (vec.map Prod.snd))
  else .ok (putRange st.1 s (srtL v us), st.2)

/-- `CSR::sort` (impl/csr.impl.hpp 530–569). -/
def sortCsr (T : Nat) (wgt : Bool) (wlt : W → W → Prop) (c : Csr W) : R (Csr W) := do
  let srtL ← R.choose (IsSort (fun a b : Nat => a < b))
  let srtP ← R.choose (IsSort (pairLt wlt))
  let its ← R.choose (OmpDyn c.n T)
  let (ep, ws) ← R.par (sortRow wgt srtL srtP c.offsets) its (c.endpoints, c.weights)
  pure { c with endpoints := ep, weights := ws }

/-! ## Removing duplicates -/

/-- The loop at impl/csr.impl.hpp 596–602: number of distinct values in runs after `prev`. -/
def countRuns : Nat → Nat → List Nat → Nat
  | _, deg, [] => deg
  | prev, deg, u :: l => if u ≠ prev then countRuns u (deg + 1) l else countRuns prev deg l

/-- `degs[v]` (impl/csr.impl.hpp 584–606), stored in the label type. -/
def dupDeg (lw : Nat) (c : Csr W) (v : Nat) : M Nat := do
  let s ← load c.offsets v
  let e ← load c.offsets (v + 1)
  let us ← loadRange c.endpoints s e
  match us with
  | [] => .ok 0
  | u :: us => .ok (countRuns u 1 us % 2 ^ lw)

/-- The copies of impl/csr.impl.hpp 700–714 after the first value: the entries starting a new run. -/
def copyRuns : Nat → List (Nat × Option W) → List (Nat × Option W)
  | _, [] => []
  | prev, (u, w) :: l => if prev ≠ u then (u, w) :: copyRuns u l else copyRuns prev l

/-- The stores of entries to `new_endpoints[n_cur++]` and, if weighted, `new_weights[n_cur-1]`
(impl/csr.impl.hpp 694–699, 706–711). -/
def dupActs (ncur : Nat) (l : List (Nat × Option W)) : List ((Nat × Nat) ⊕ (Nat × W)) :=
  (blockActs ncur l).flatMap (fun p =>
    Sum.inl (p.1, p.2.1) :: (match p.2.2 with | some w => [Sum.inr (p.1, w)] | none => []))

/-- Iteration `v` of the copy loop on the loaded row (impl/csr.impl.hpp 687–713). -/
def dupRow (newOffsets : List Nat) (v : Nat) : List (Nat × Option W) → M (List ((Nat × Nat) ⊕ (Nat × W)))
  | [] => .ok []
  | (u, w) :: l => do
    let ncur ← load newOffsets v
    .ok (dupActs ncur ((u, w) :: copyRuns u l))

/-- Iteration `v` of the copy loop (impl/csr.impl.hpp 684–715). -/
def dupCopy (wgt : Bool) (c : Csr W) (newOffsets : List Nat) (v : Nat) : M (List ((Nat × Nat) ⊕ (Nat × W))) := do
  let s ← load c.offsets v
  let e ← load c.offsets (v + 1)
  let us ← loadRange c.endpoints s e
  let ws ← if wgt then (loadRange c.weights s e >>= fun ws => .ok (ws.map some))
    else .ok (List.replicate us.length none)
  dupRow newOffsets v (us.zip ws)

/-- `CSR::new_csr_without_dups` (impl/csr.impl.hpp 571–718): the sorted original and the new CSR.
The result has the same template types.  `new_m` is the OpenMP reduction: the sum of the threads' sums. -/
def withoutDups (lw T : Nat) (wgt : Bool) (wlt : W → W → Prop) (c : Csr W) : R (Csr W × Csr W) := do
  let c ← sortCsr T wgt wlt c
  let n := c.n
  let junkDegs ← R.any (Nat → Nat)
  let its ← R.choose (OmpDyn n T)
  let counts ← R.lift (mapE (fun vs => mapE (fun v => dupDeg lw c v >>= fun d => .ok (v, d)) vs) its)
  let degs ← R.par storeAct counts (alloc junkDegs n)
  let newM := (counts.map (fun t => (t.map Prod.snd).sum)).sum
  let j ← R.any (CsrJunk W)
  let junkStart ← R.any (Nat → Nat)
  let starts ← R.par storeAct ((List.range T).map (fun tid => [(tid, (slice degs n T tid).sum)])) (alloc junkStart T)
  let starts := prefixSums 0 starts
  let offsets ← R.par storeAct (offsetThreads n newM T degs starts) (alloc j.offsets (plusOne lw n))
  let its ← R.choose (OmpDyn n T)
  let threads ← R.lift (mapE (fun vs => mapE (dupCopy wgt c offsets) vs) its)
  let (ep, ws) ← R.par (sumStep storeAct storeAct) (threads.map List.flatten)
    (alloc j.endpoints newM, if wgt then alloc j.weights newM else [])
  pure (c, { offsets := offsets, endpoints := ep, weights := ws, n := n, m := newM, nrows := c.nrows, ncols := c.ncols })

end Pigo
