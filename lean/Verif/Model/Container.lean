import Verif.Model.Dispatch

/-!
# One `File` holding several objects

`CSR::save(File&)`, `CSR::save_size` and `CSR(File&, FileType)` (csr.hpp 180, 256, 272), `File::write`, `File::read`,
`File::parallel_write`, `File::parallel_read`, `File::seek` (impl/pigo.impl.hpp 99–133) let a program lay out a file of its own: values,
strings, blocks of memory and graphs, one after the other, in a file whose size it has added up beforehand.

Simplified: the machine loads and stores values of any alignment (alignment is the subject of `Model/Align`), system calls succeed.
-/

namespace Pigo.Box

variable {W : Type}

/-- What a program puts in a file. -/
inductive Rec (W : Type)
  /-- a CSR with the template parameters `P` -/
  | csr (P : Params W) (c : Csr W)
  /-- an unsigned value of `k` bytes -/
  | num (k v : Nat)
  /-- a string -/
  | text (s : List Byte)
  /-- a block of memory -/
  | raw (bs : List Byte)

/-- What a program has to know to read a record back. -/
inductive Shape (W : Type)
  | csr (P : Params W)
  | num (k : Nat)
  | text (s : List Byte)
  | raw (n : Nat)

def Rec.shape : Rec W → Shape W
  | .csr P _ => .csr P
  | .num k _ => .num k
  | .text s => .text s
  | .raw bs => .raw bs.length

/-- The number of bytes the program reserves: `save_size()` for a CSR (impl/csr.impl.hpp 426–442), `sizeof`, `size()`. -/
def Rec.size : Rec W → Nat
  | .csr P c => csrSaveSize P.lb P.ob P.wk.wgt P.cw c
  | .num k _ => k
  | .text s => s.length
  | .raw bs => bs.length

/-- The bytes reserved for a list of records. -/
def total (rs : List (Rec W)) : Nat := (rs.map Rec.size).sum

/-- `csr.save(f)` (impl/csr.impl.hpp 456–493), `f.write(v)`, `f.write(s)`, `f.parallel_write(v, size)` (impl/pigo.impl.hpp 113–123,
173–186). -/
def put (T : Nat) : Rec W → WFile → R WFile
  | .csr P c, f => saveCsrTo T P.lb P.ob P.wk.wgt P.cw c f
  | .num k v, f => R.lift (wBytes (encLE k v) f)
  | .text s, f => R.lift (wBytes s f)
  | .raw bs, f => parWrite T bs bs.length f

/-- One record after the other. -/
def putAll (T : Nat) : List (Rec W) → WFile → R WFile
  | [], f => pure f
  | r :: rs, f => do
    let f ← put T r f
    putAll T rs f

/-- `WFile f {fn, size}` and the records: the content of the file. -/
def build (T size : Nat) (rs : List (Rec W)) : R (List Byte) := do
  let f ← R.lift (openW size)
  let f ← putAll T rs f
  pure f.bytes

/-- `CSR c {f, ft}` (csr.hpp 180), `f.read<T>()`, `f.read(s)`, `f.parallel_read(buf, n)` (impl/pigo.impl.hpp 99–111, 125–127) with the
position of the file at `p`: the object and the new position. The buffer has `n` bytes of any content. -/
def get (T : Nat) (ft : FileType) (μ : Mapping) (fn : List Byte) : Shape W → Nat → R (Rec W × Nat)
  | .csr P, p => do
    let (c, p) ← readCsr { P with T := T } μ fn p ft
    pure (.csr P c, p)
  | .num k, p => do
    let (v, p) ← R.lift (rdLE μ k p)
    pure (.num k v, p)
  | .text s, p => do
    let p ← R.lift (rdStr μ s p)
    pure (.text s, p)
  | .raw n, p => do
    let junk ← R.any (Nat → Byte)
    let (b, p) ← parRead T μ (alloc junk n) n p
    pure (.raw b, p)

/-- One record after the other, from position `p`. -/
def getAll (T : Nat) (ft : FileType) (μ : Mapping) (fn : List Byte) : List (Shape W) → Nat → R (List (Rec W) × Nat)
  | [], p => pure ([], p)
  | s :: ss, p => do
    let (r, p) ← get T ft μ fn s p
    let (rs, p) ← getAll T ft μ fn ss p
    pure (r :: rs, p)

/-- `f.seek(pos)` (impl/pigo.impl.hpp 129–133): the new position. -/
def seekTo (μ : Mapping) (pos : Nat) : M Nat := if pos ≥ μ.bytes.length then .error .error else .ok pos

/-- `f.seek(pos)` and a read. -/
def getAt (T : Nat) (ft : FileType) (μ : Mapping) (fn : List Byte) (pos : Nat) (s : Shape W) : R (Rec W × Nat) := do
  let p ← R.lift (seekTo μ pos)
  get T ft μ fn s p

end Pigo.Box
