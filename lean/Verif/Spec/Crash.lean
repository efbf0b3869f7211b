import Verif.Spec.Binary

/-!
# What an interrupted save leaves

The parts of a file are written one after the other over a new file of the final size.
-/

namespace Pigo.Spec

variable {W : Type}

/-- A new file of `n` bytes: zeros, and a one at the end. -/
def blank (n : Nat) : List Byte := List.replicate (n - 1) 0 ++ [1]

/-- A file of `n` bytes of which the parts `done` are written. -/
def stage (n : Nat) (done : List (List Byte)) : List Byte := done.flatten ++ (blank n).drop done.flatten.length

/-- Every byte of `s` is that of `a` or that of `b`. -/
def Between (a b s : List Byte) : Prop := s.length = a.length ∧ ∀ i : Nat, s[i]? = a[i]? ∨ s[i]? = b[i]?

/-- What is in a file that had the contents `old` and is being overwritten with the `parts`: all parts before some part are
written, the bytes of this part are partly written, nothing of the parts behind it is. -/
inductive Interrupted (old : List Byte) (parts : List (List Byte)) : List Byte → Prop
  /-- the old contents -/
  | untouched : Interrupted old parts old
  /-- nothing -/
  | emptied : Interrupted old parts []
  /-- some of the parts -/
  | during (k : Nat) (hk : k < parts.length) (s : List Byte)
      (h : Between (stage parts.flatten.length (parts.take k)) (stage parts.flatten.length (parts.take (k + 1))) s) : Interrupted old parts s

/-- The parts of a COO file. -/
def cooParts (lb ob : Nat) (wgt : Bool) (cw : Codec W) (c : Coo W) : List (List Byte) :=
  [str "PIGO-COO-v1", le 1 lb, le 1 ob, le lb c.nrows, le lb c.ncols, le lb c.n, le ob c.m,
   c.x.flatMap (le lb), c.y.flatMap (le lb), if wgt then c.w.flatMap cw.enc else []]

/-- The parts of a CSR file. -/
def csrParts (lb ob : Nat) (wgt : Bool) (cw : Codec W) (c : Csr W) : List (List Byte) :=
  [str "PIGO-CSR-v2", le 1 lb, le 1 ob, le lb c.n, le ob c.m, le lb c.nrows, le lb c.ncols,
   c.offsets.flatMap (le ob), c.endpoints.flatMap (le lb), if wgt then c.weights.flatMap cw.enc else []]

/-- The parts of a DiGraph file. -/
def digraphParts (lb ob : Nat) (wgt : Bool) (cw : Codec W) (g : DiGraph W) : List (List Byte) :=
  str "PIGO-DiGraph-v1" :: (csrParts lb ob wgt cw g.inG ++ csrParts lb ob wgt cw g.outG)

/-- The parts of a Tensor file. -/
def tensorParts (lb ob : Nat) (wgt : Bool) (cw : Codec W) (t : Tensor W) : List (List Byte) :=
  [str "PIGO-Tensor-2", le 1 lb, le 1 ob, if wgt then le 1 cw.size else [], le ob t.order, le ob t.m,
   t.c.flatMap (le lb), if wgt then t.w.flatMap cw.enc else []]

/-- Every byte is either still that of the new file or the one written (in any order: also what is left after the machine
stopped and only some of the bytes reached the disk). -/
def Torn (new s : List Byte) : Prop := Between (blank new.length) new s

/-- Every byte of an unfinished text is the one written, or that of the new file, or a zero. -/
def TornText (new s : List Byte) : Prop :=
  s.length = new.length ∧ ∀ i : Nat, s[i]? = new[i]? ∨ s[i]? = (blank new.length)[i]? ∨ s[i]? = some 0

end Pigo.Spec
