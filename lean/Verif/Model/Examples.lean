import Verif.Model.Write
import Verif.Model.Graph

/-!
# The example programs (docs/examples)

`clean_graph.cpp`, `symmetrize.cpp` and `find_edge.cpp`: what is read from the file `fn` (content `μ`) and what is written,
or the exit code.  The type sizes and the number of threads are those of `P` (the programs use 64-bit labels and ordinals).
Memory is released by the storage type (`shared_ptr`), so the calls of `free` are left out; so are the log messages.
-/

namespace Pigo

/-- The template flags `true, true, true` of clean_graph.cpp 27–28. -/
def cleanCfg : Cfg := { sym := true, ut := true, sl := true }

/-- The template flags `true, false, false` of symmetrize.cpp 31–32. -/
def symCfg : Cfg := { sym := true }

/-- `main` of clean_graph.cpp (18–57): the content of the output file. -/
def cleanGraph (P : Params Unit) (μ : Mapping) (fn : List Byte) : R (List Byte) := do
  let coo ← readCoo P cleanCfg μ fn 0 .auto
  let csr ← convertCoo (8 * P.lb) (8 * P.ob) P.T false coo
  let r ← withoutDups (8 * P.lb) P.T false (fun _ _ => False) csr
  let out ← convertCsr (8 * P.ob) P.T .shared {} false r.2
  writeCoo P.T wtNone out

/-- `main` of symmetrize.cpp (22–57): the content of the output file. -/
def symmetrizeProg (P : Params Unit) (μ : Mapping) (fn : List Byte) : R (List Byte) := do
  let coo ← readCoo P symCfg μ fn 0 .auto
  let csr ← convertCoo (8 * P.lb) (8 * P.ob) P.T false coo
  let csr ← sortCsr P.T false (fun _ _ => False) csr
  let out ← convertCsr (8 * P.ob) P.T .shared {} false csr
  writeCoo P.T wtNone out

/-- `std::lower_bound(first, first+len, val)` as in the usual implementations (trusted to be this loop): the length is
halved in every step; `fuel` bounds the steps. -/
def lowerBound (a : List Nat) (val : Nat) : Nat → Nat → Nat → M Nat
  | 0, _, _ => .error .fuel
  | fuel + 1, first, len =>
    if len = 0 then .ok first else do
      let half := len / 2
      let x ← load a (first + half)
      if x < val then lowerBound a val fuel (first + half + 1) (len - half - 1)
      else lowerBound a val fuel first half

/-- `std::binary_search(a+s, a+e, val)`. -/
def binarySearch (a : List Nat) (s e val : Nat) : M Bool := do
  let i ← lowerBound a val (e - s + 1) s (e - s)
  if i = e then .ok false else do
    let x ← load a i
    .ok (!decide (val < x))

/-- `main` of find_edge.cpp (15–49): the exit code.  `src` and `dst` are the numbers of the command line (`stoll`).
The label and ordinal types are signed there; this model takes the unsigned ones of the same size, which agree as long as the
labels and counts fit the signed ones (`sFindEdge`, C98).  `neighbor_start` of a negative number is a load outside of the array. -/
def findEdge (P : Params Unit) (μ : Mapping) (fn : List Byte) (src dst : Int) : R Nat := do
  let g ← readCsr P μ fn 0 .auto
  let g := g.1
  if src ≥ g.n ∨ dst ≥ g.n then R.lift (.error .error) else do
    let g ← sortCsr P.T false (fun _ _ => False) g
    if src < 0 then R.lift (.error .oob) else do
      let s ← R.lift (neighborStart g src.toNat)
      let e ← R.lift (neighborEnd (8 * P.lb) g src.toNat)
      -- a negative `dst` is smaller than every endpoint
      let found ← R.lift (if dst < 0 then .ok false else binarySearch g.endpoints s e dst.toNat)
      pure (if found then 0 else 2)

end Pigo
