import Verif.Model.Reader
import Verif.Base.Blocks

/-!
# Reading a COO from text (impl/coo.impl.hpp 138–481)

`read_wgt_`, `read_coord_entry_`, `read_el_` and `read_mm_`.

A label type is given by its width `lw` in bits (unsigned), an ordinal type by `ow`.  The template flags
are `Cfg`, the weight type a `WKind`.  Pass 2 of `read_el_` is modelled as one list of stores per thread
(what a thread stores does not depend on shared memory, except `copyW`), executed in any interleaving.
-/

namespace Pigo

/-- The template flags `sym`, `ut`, `sl` of `COO` (coo.hpp 40–56, 67–69). -/
structure Cfg where
  sym : Bool := false
  ut : Bool := false
  sl : Bool := false
  deriving DecidableEq, Repr

/-- All flags off: the specializations at impl/coo.impl.hpp 286–316 are selected. -/
def Cfg.plain (c : Cfg) : Bool := !c.sym && !c.ut && !c.sl

/-- `read_wgt_i_<wgt, …, W, WS, counting>` (impl/coo.impl.hpp 138–224): how a weight is skipped when
counting and read when setting.  `wgt` is the template flag: without it nothing is stored. -/
structure WKind (W : Type) where
  wgt : Bool
  count : Mapping → Reader → M Reader
  read : Mapping → Reader → M (W × Reader)

/-- No weights: the primary template `read_wgt_i_` (impl/coo.impl.hpp 139–140). -/
def wNone : WKind Unit where
  wgt := false
  count := fun _ r => .ok r
  read := fun _ r => .ok ((), r)

/-- Unsigned integral weights of `w` bits (impl/coo.impl.hpp 151–156 and 171–179). -/
def wUint (w : Nat) : WKind Nat where
  wgt := true
  count := fun μ r => moveToNextInt μ r
  read := fun μ r => do
    let r ← moveToNextInt μ r
    let (v, r) ← readInt μ (wrapU w) r
    .ok (v, r)

/-- Signed integral weights of `w` bits (impl/coo.impl.hpp 143–148 and 159–168); signed overflow is a fault. -/
def wSint (w : Nat) : WKind Int where
  wgt := true
  count := fun μ r => moveToNextSignedInt μ r
  read := fun μ r => do
    let r ← moveToNextSignedInt μ r
    let neg ← readNeg μ r
    let (v, r) ← readInt μ (wrapS w) r
    .ok (if neg then -(v : Int) else (v : Int), r)

/-- `while (r.good()) body` with a loop counter; running out of it while still good is `Fault.fuel`. -/
def whileGood {σ : Type} (body : σ → Reader → M (σ × Reader)) : Nat → σ → Reader → M (σ × Reader)
  | 0, s, r => if r.good then .error .fuel else .ok (s, r)
  | n+1, s, r => if r.good then do
      let (s, r) ← body s r
      whileGood body n s r
    else .ok (s, r)

section
variable {W : Type} (μ : Mapping) (lw : Nat) (cfg : Cfg) (wk : WKind W)

/-- `read_coord_entry_i_<…,true>::op_`, general version (impl/coo.impl.hpp 229–249): count the stored
entries of one line; dropped lines recurse. -/
def countEntryN : Nat → Nat → Reader → M (Nat × Reader)
  | 0, _, _ => .error .fuel
  | n+1, pos, r => do
    let (x, r) ← readInt μ (wrapU lw) r
    let r ← moveToNextInt μ r
    let (y, r) ← readInt μ (wrapU lw) r
    let r ← wk.count μ r
    if !r.good then .ok (pos, r) else do
      let r ← moveToEol μ r
      let r ← moveToNextInt μ r
      if cfg.sl && x == y then countEntryN n pos r
      else if !cfg.sym && cfg.ut && decide (x > y) then countEntryN n pos r
      else .ok ((if cfg.sym && !cfg.ut && x != y then pos + 1 else pos) + 1, r)

/-- `read_coord_entry_i_<L,O,S,false,false,false,…,true>::op_` (impl/coo.impl.hpp 286–297) -/
def countEntryPlain (pos : Nat) (r : Reader) : M (Nat × Reader) := do
  let r ← moveToNextInt μ r
  if !r.good then .ok (pos, r) else do
    let r ← moveToEol μ r
    let r ← moveToNextInt μ r
    .ok (pos + 1, r)

/-- `read_coord_entry_<true>` (impl/coo.impl.hpp 318–324): template selection. -/
def countEntry (pos : Nat) (r : Reader) : M (Nat × Reader) :=
  if cfg.plain then countEntryPlain μ pos r else countEntryN μ lw cfg wk (r.e - r.d + 1) pos r

end

/-- A store to the COO arrays (`set_value_`, detail.hpp): to `x_`, `y_`, `w_`, or the copy
`w_[dst] = w_[src]` of impl/coo.impl.hpp 273–276. -/
inductive Act (W : Type)
  | setX (i v : Nat)
  | setY (i v : Nat)
  | setW (i : Nat) (w : W)
  | copyW (dst src : Nat)
  deriving DecidableEq, Repr

/-- Thread-local state of pass 2: `coord_pos`, the private `max_row`, `max_col`, and the stores done. -/
structure SetSt (W : Type) where
  pos : Nat
  mr : Nat := 0
  mc : Nat := 0
  acts : List (Act W) := []
  deriving DecidableEq, Repr

/-- `if (x > max) max = x;` -/
def upd (mx x : Nat) : Nat := if x > mx then x else mx

section
variable {W : Type} (μ : Mapping) (lw : Nat) (cfg : Cfg) (wk : WKind W)

/-- The weight part of an entry, `read_wgt_<…,false>(coord_pos, w_, r)`: stores at `w_[coord_pos]`. -/
def setWgt (st : SetSt W) (r : Reader) : M (W × SetSt W × Reader) := do
  let (w, r) ← wk.read μ r
  .ok (w, { st with acts := if wk.wgt then st.acts ++ [.setW st.pos w] else st.acts }, r)

/-- `read_coord_entry_i_<…,false>::op_`, general version (impl/coo.impl.hpp 251–284). -/
def setEntryN : Nat → SetSt W → Reader → M (SetSt W × Reader)
  | 0, _, _ => .error .fuel
  | n+1, st, r => do
    let (x, r) ← readInt μ (wrapU lw) r
    let r ← moveToNextInt μ r
    let (y, r) ← readInt μ (wrapU lw) r
    let (_, st, r) ← setWgt μ wk st r
    if !r.good then .ok (st, r) else do
      let r ← moveToEol μ r
      let r ← moveToNextInt μ r
      if cfg.sl && x == y then setEntryN n st r
      else if !cfg.sym && cfg.ut && decide (x > y) then setEntryN n st r
      else
        let (x, y) := if cfg.sym && cfg.ut && decide (x > y) then (y, x) else (x, y)
        let p := st.pos
        let a1 : List (Act W) := [.setX p x, .setY p y]
        let p := p + 1
        let a2 : List (Act W) :=
          if cfg.sym && !cfg.ut && x != y then
            (if wk.wgt then [.copyW p (p - 1)] else []) ++ [.setY p x, .setX p y]
          else []
        let p := if cfg.sym && !cfg.ut && x != y then p + 1 else p
        .ok ({ pos := p, mr := upd st.mr x, mc := upd st.mc y, acts := st.acts ++ a1 ++ a2 }, r)

/-- `read_coord_entry_i_<L,O,S,false,false,false,…,false>::op_` (impl/coo.impl.hpp 299–316) -/
def setEntryPlain (st : SetSt W) (r : Reader) : M (SetSt W × Reader) := do
  let (x, r) ← readInt μ (wrapU lw) r
  let r ← moveToNextInt μ r
  let (y, r) ← readInt μ (wrapU lw) r
  let (_, st, r) ← setWgt μ wk st r
  if !r.good then .ok (st, r) else do
    let r ← moveToEol μ r
    let r ← moveToNextInt μ r
    .ok ({ pos := st.pos + 1, mr := upd st.mr x, mc := upd st.mc y,
           acts := st.acts ++ [.setX st.pos x, .setY st.pos y] }, r)

/-- `read_coord_entry_<false>` (impl/coo.impl.hpp 318–324): template selection. -/
def setEntry (st : SetSt W) (r : Reader) : M (SetSt W × Reader) :=
  if cfg.plain then setEntryPlain μ lw wk st r else setEntryN μ lw cfg wk (r.e - r.d + 1) st r

end

/-- `List.mapM` in the outcome monad. -/
def mapE {α β : Type} (f : α → M β) : List α → M (List β)
  | [] => .ok []
  | a :: l => do
    let b ← f a
    let bs ← mapE f l
    .ok (b :: bs)

/-- The in-place inclusive prefix sum of impl/coo.impl.hpp 443–449. -/
def prefixSums : Nat → List Nat → List Nat
  | _, [] => []
  | acc, c :: cs => (acc + c) :: prefixSums (acc + c) cs

/-- Start position of thread `tid` (impl/coo.impl.hpp 460–462). -/
def startOf (offs : List Nat) (tid : Nat) : Nat := if tid > 0 then offs.getD (tid - 1) 0 else 0

/-- `re.move_to_eol(); re.move_to_next_int();` (impl/coo.impl.hpp 421–422, 424–425) -/
def nextLineInt (μ : Mapping) (r : Reader) : M Reader := do
  let r ← moveToEol μ r
  moveToNextInt μ r

/-- Start of the region of thread `tid` (impl/coo.impl.hpp 423–427) -/
def elStart (μ : Mapping) (rs : Reader) (tid : Nat) : M Reader :=
  if tid ≠ 0 then nextLineInt μ rs else moveToFirstInt μ rs

/-- The reader `rs` of thread `tid` (impl/coo.impl.hpp 412–431). -/
def elRegion (μ : Mapping) (r : Reader) (T tid : Nat) : M Reader := do
  let re ← nextLineInt μ (r.plus ((tid + 1) * r.size / T))
  let rs ← elStart μ (r.plus (tid * r.size / T)) tid
  .ok (rs.smallerEnd re)

/-- What the threads of `read_el_` do: the number of entries, the stores of each thread and the
reduced maxima. -/
structure Plan (W : Type) where
  m : Nat
  threads : List (List (Act W))
  mr : Nat
  mc : Nat
  deriving DecidableEq, Repr

/-- Pass 1 of a thread (impl/coo.impl.hpp 433–440) -/
def elCount {W : Type} (μ : Mapping) (lw : Nat) (cfg : Cfg) (wk : WKind W) (rs : Reader) : M Nat := do
  let (c, _) ← whileGood (countEntry μ lw cfg wk) (rs.e - rs.d) 0 rs
  .ok c

/-- Pass 2 of thread `p.1` with reader `p.2` (impl/coo.impl.hpp 458–468) -/
def elSet {W : Type} (μ : Mapping) (lw : Nat) (cfg : Cfg) (wk : WKind W) (offs : List Nat) (p : Nat × Reader) :
    M (SetSt W) := do
  let (st, _) ← whileGood (setEntry μ lw cfg wk) (p.2.e - p.2.d) ({ pos := startOf offs p.1 } : SetSt W) p.2
  .ok st

/-- Allocation size and reductions (impl/coo.impl.hpp 452–453 and 404–405). -/
def elPlan {W : Type} (ow T : Nat) (offs : List Nat) (sts : List (SetSt W)) : Plan W :=
  { m := offs.getD (T - 1) 0 % 2 ^ ow
    threads := sts.map (·.acts)
    mr := sts.foldl (fun a s => max a s.mr) 0
    mc := sts.foldl (fun a s => max a s.mc) 0 }

/-- `read_el_` up to the stores (impl/coo.impl.hpp 383–481): split, pass 1, prefix sum, pass 2. -/
def readElPlan {W : Type} (μ : Mapping) (lw ow : Nat) (cfg : Cfg) (wk : WKind W) (T : Nat) (r : Reader) :
    M (Plan W) := do
  let regions ← mapE (elRegion μ r T) (List.range T)
  let counts ← mapE (elCount μ lw cfg wk) regions
  let sts ← mapE (elSet μ lw cfg wk (prefixSums 0 counts)) ((List.range T).zip regions)
  .ok (elPlan ow T (prefixSums 0 counts) sts)

/-- The three arrays of a COO. -/
structure Mem (W : Type) where
  x : List Nat
  y : List Nat
  w : List W
  deriving DecidableEq, Repr

/-- Execute one store. -/
def stepAct {W : Type} : Act W → Mem W → M (Mem W)
  | .setX i v, s => do let x ← store s.x i v; .ok { s with x := x }
  | .setY i v, s => do let y ← store s.y i v; .ok { s with y := y }
  | .setW i v, s => do let w ← store s.w i v; .ok { s with w := w }
  | .copyW d c, s => match s.w[c]? with
    | none => .error .oob
    | some v => do let w ← store s.w d v; .ok { s with w := w }

/-- Uninitialised array of `n` elements (`malloc` in `detail::allocate_mem_`): content `junk`. -/
def alloc {α : Type} (junk : Nat → α) (n : Nat) : List α := (List.range n).map junk

/-- Contents of freshly allocated arrays. -/
structure Junk (W : Type) where
  x : Nat → Nat
  y : Nat → Nat
  w : Nat → W

/-- `COO::allocate_()` (impl/coo.impl.hpp 131–136) -/
def allocCoo {W : Type} (wgt : Bool) (j : Junk W) (m : Nat) : Mem W :=
  { x := alloc j.x m, y := alloc j.y m, w := if wgt then alloc j.w m else [] }

/-- A COO object (coo.hpp 66–95): arrays, `n_`, `m_`, `nrows_`, `ncols_`. -/
structure Coo (W : Type) where
  x : List Nat
  y : List Nat
  w : List W
  n : Nat
  m : Nat
  nrows : Nat
  ncols : Nat
  deriving DecidableEq, Repr

/-- End of `read_el_` (impl/coo.impl.hpp 474–480): execute the stores in the order `sched`, set the sizes. -/
def execPlan {W : Type} (lw : Nat) (wgt : Bool) (j : Junk W) (p : Plan W) (sched : List (Act W)) : M (Coo W) := do
  let mem ← runActs stepAct sched (allocCoo wgt j p.m)
  let nrows := (p.mr + 1) % 2 ^ lw
  let ncols := (p.mc + 1) % 2 ^ lw
  .ok { x := mem.x, y := mem.y, w := mem.w, m := p.m, nrows := nrows, ncols := ncols,
        n := if nrows > ncols then nrows else ncols }

/-- An execution of `read_el_` with `T` threads: the outcome `out` is reached under some interleaving of
the threads' stores and some content of the uninitialised memory. -/
def ReadEl {W : Type} (μ : Mapping) (lw ow : Nat) (cfg : Cfg) (wk : WKind W) (T : Nat) (r : Reader)
    (out : M (Coo W)) : Prop :=
  match readElPlan μ lw ow cfg wk T r with
  | .error f => out = .error f
  | .ok p => ∃ j sched, Interleave p.threads sched ∧ out = execPlan lw wk.wgt j p sched

/-- `File::reader()` (pigo.hpp 395–397, `FileReader { fp_, data_+size_ }`) of a freshly opened file. -/
def fileReader (μ : Mapping) : Reader := ⟨0, μ.bytes.length⟩

/-- The string `%%MatrixMarket matrix coordinate` (impl/coo.impl.hpp 332). -/
def mmBanner : List Byte := str "%%MatrixMarket matrix coordinate"

/-- Header part of `read_mm_` (impl/coo.impl.hpp 326–345): `nrows`, `ncols`, `nnz` and the reader
at the contents. -/
def readMmHeader (μ : Mapping) (lw ow : Nat) (r : Reader) : M (Nat × Nat × Nat × Reader) := do
  let ok ← atStr μ mmBanner r
  if !ok then .error .nyi else do
    let r ← moveToNextInt μ r
    let (a, r) ← readInt μ (wrapU lw) r
    let nrows := (a + 1) % 2 ^ lw
    let r ← moveToNextInt μ r
    let (b, r) ← readInt μ (wrapU lw) r
    let ncols := (b + 1) % 2 ^ lw
    let r ← moveToNextInt μ r
    let (nnz, r) ← readInt μ (wrapU ow) r
    let r ← moveToEol μ r
    let r ← moveToNextInt μ r
    .ok (nrows, ncols, nnz, r)

/-- `2*m` for a value of the ordinal type of `ow` bits: types narrower than `int` are promoted, the other ones wrap
(impl/coo.impl.hpp 363, impl/csr.impl.hpp 413). -/
def twice (ow m : Nat) : Nat := if ow < 32 then 2 * m else 2 * m % 2 ^ ow

theorem twice_lt {ow m : Nat} (h : 2 * m < 2 ^ ow) : twice ow m = 2 * m := by
  unfold twice; split
  · rfl
  · exact Nat.mod_eq_of_lt h

/-- The checks at the end of `read_mm_` (impl/coo.impl.hpp 350–380). -/
def mmCheck {W : Type} (ow : Nat) (cfg : Cfg) (nrows ncols nnz : Nat) (c : Coo W) : M (Coo W) :=
  if nrows ≥ c.nrows then
    if ncols ≥ c.ncols then
      let bad := if cfg.sym then decide (nnz > twice ow c.m)
        else if cfg.sl then decide (nnz > c.m) else nnz != c.m
      if bad then .error .error
      else .ok { c with nrows := nrows, ncols := ncols, n := if nrows > ncols then nrows else ncols }
    else .error .error
  else .error .error

/-- An execution of `read_mm_` (impl/coo.impl.hpp 326–381). -/
def ReadMm {W : Type} (μ : Mapping) (lw ow : Nat) (cfg : Cfg) (wk : WKind W) (T : Nat) (r : Reader)
    (out : M (Coo W)) : Prop :=
  match readMmHeader μ lw ow r with
  | .error f => out = .error f
  | .ok (nrows, ncols, nnz, r') => ∃ o, ReadEl μ lw ow cfg wk T r' o ∧
      out = o.bind (mmCheck ow cfg nrows ncols nnz)

end Pigo
