import Verif.Base.Basic

/-!
# Opening, seeking, moving and closing a `File`

`File::File` (impl/pigo.impl.hpp 22–77), `~File` (79–85), move assignment (87–97), `seek` (129–133), move constructor
(pigo.hpp 318–321); `ROFile`, `WFile` (pigo.hpp 400–418) only call `File::File`.

System calls are modelled by their effect on the file contents and may fail at will (`Sys`).
-/

namespace Pigo.Files

inductive Mode
  | read | write
  deriving DecidableEq, Repr

/-- Which system call fails. -/
structure Sys where
  fopen : Bool := false
  fseek : Bool := false
  fputc : Bool := false
  fclose : Bool := false
  openFd : Bool := false
  fdopen : Bool := false
  seekEnd : Bool := false
  ftell : Bool := false
  mmap : Bool := false
  fclose2 : Bool := false
  madvise : Bool := false
  deriving DecidableEq, Repr

/-- No system call fails. -/
def Sys.fine : Sys := {}

/-- The messages of the exceptions. -/
inductive Err
  | maxSizeTooLow | maxSizeOnlyWrite | openWrite | seekSize | setSize | closeNew | openRead | fdopen | seekEnd | invalidSize
  | wrongSize | mmap | fclose | madvise | seekBeyond
  deriving DecidableEq, Repr

/-- File contents by name; `none`: no such file. -/
abbrev FS := String → Option (List UInt8)

def FS.put (fs : FS) (fn : String) (c : List UInt8) : FS := fun f => if f = fn then some c else fs f

/-- A `File`: the mapped bytes (`data_`, `size_`), the cursor as the distance `fp_ - data_`, the name and whether the mapping is
writeable. -/
structure FileObj where
  data : List UInt8
  size : Nat
  fp : Nat
  fn : String
  writeable : Bool
  deriving DecidableEq, Repr

/-- `seek(pos)` (impl/pigo.impl.hpp 129–133). -/
def seek (f : FileObj) (pos : Nat) : Except Err FileObj :=
  if pos ≥ f.size then .error .seekBeyond else .ok { f with fp := pos }

/-- The part of the constructor that creates the file (impl/pigo.impl.hpp 37–44): `fopen(fn, "w")` truncates, the seek and
the `fputc(1)` at `max_size-1` give a file of `max_size` bytes, all 0 but the last. -/
def create (sys : Sys) (fs : FS) (fn : String) (maxSize : Nat) : Except Err Unit × FS :=
  if sys.fopen then (.error .openWrite, fs)
  else
    let fs0 := fs.put fn []
    if sys.fseek then (.error .seekSize, fs0)
    else if sys.fputc then (.error .setSize, fs0)
    else
      let fs1 := fs.put fn (List.replicate (maxSize - 1) 0 ++ [1])
      if sys.fclose then (.error .closeNew, fs1) else (.ok (), fs1)

/-- The rest of the constructor (impl/pigo.impl.hpp 46–76): open, find the size, map, close, `seek(0)`. `size_` is a
`size_t`; a size is at most the largest file offset, so nothing wraps. `mmap` fails for a length of 0 (POSIX). -/
def mapFile (sys : Sys) (fs : FS) (fn : String) (mode : Mode) (maxSize : Nat) : Except Err FileObj :=
  match fs fn with
  | none => .error .openRead
  | some c =>
    if sys.openFd then .error .openRead
    else if sys.fdopen then .error .fdopen
    else if sys.seekEnd then .error .seekEnd
    else if sys.ftell then .error .invalidSize
    else if mode = .write ∧ c.length ≠ maxSize then .error .wrongSize
    else if sys.mmap ∨ c.length = 0 then .error .mmap
    else if sys.fclose2 then .error .fclose
    else if sys.madvise then .error .madvise
    else seek { data := c, size := c.length, fp := 0, fn := fn, writeable := decide (mode = .write) } 0

/-- `File(fn, mode, max_size)` (impl/pigo.impl.hpp 22–77). -/
def openFile (sys : Sys) (fs : FS) (fn : String) (mode : Mode) (maxSize : Nat) : Except Err FileObj × FS :=
  match mode with
  | .write =>
    if maxSize = 0 then (.error .maxSizeTooLow, fs)
    else match create sys fs fn maxSize with
      | (.error e, fs) => (.error e, fs)
      | (.ok _, fs) => (mapFile sys fs fn .write maxSize, fs)
  | .read =>
    if maxSize > 0 then (.error .maxSizeOnlyWrite, fs)
    else (mapFile sys fs fn .read maxSize, fs)

/-! ## Moves: which object owns which mapping -/

/-- A `File` as far as ownership is concerned: the mapping `data_` points to (`none`: null), `size_`, `fp_` as mapping and
offset (`none`: indeterminate), `fn_`. -/
structure MObj where
  data : Option Nat
  size : Nat
  fp : Option (Nat × Nat)
  fn : String
  deriving DecidableEq, Repr

/-- Objects, the number of mappings made so far, and the log of `munmap` calls. -/
structure MState where
  objs : Nat → Option MObj
  next : Nat
  unmapped : List Nat

def MState.init : MState := ⟨fun _ => none, 0, []⟩

def MState.put (st : MState) (i : Nat) (o : Option MObj) : MState := { st with objs := fun k => if k = i then o else st.objs k }

/-- `if (data_) munmap(data_, size_)` (impl/pigo.impl.hpp 81–82, 90–91). -/
def MState.unmap (st : MState) : Option Nat → MState
  | none => st
  | some d => { st with unmapped := d :: st.unmapped }

inductive MOp
  /-- a successful construction from a file of `size > 0` bytes -/
  | openNew (i : Nat) (fn : String) (size : Nat)
  /-- a successful `i.seek(pos)` -/
  | seekTo (i pos : Nat)
  /-- `File i(std::move(j))` -/
  | moveCtor (i j : Nat)
  /-- `i = std::move(j)` -/
  | moveAssign (i j : Nat)
  /-- end of the lifetime -/
  | destroy (i : Nat)

/-- One operation; operations on objects that do not exist and constructions of names in use are skipped. -/
def mstep : MOp → MState → MState
  | .openNew i fn size, st =>
    match st.objs i with
    | some _ => st
    | none => { st.put i (some ⟨some st.next, size, some (st.next, 0), fn⟩) with next := st.next + 1 }
  | .seekTo i pos, st =>
    match st.objs i with
    | some o =>
      match o.data with
      | some d => if pos ≥ o.size then st else st.put i (some { o with fp := some (d, pos) })
      | none => st
    | none => st
  | .moveCtor i j, st =>
    match st.objs i, st.objs j with
    | none, some o => st.put i (some ⟨o.data, o.size, none, ""⟩)      -- `fp_` indeterminate, `fn_` empty, `o` unchanged
    | _, _ => st
  | .moveAssign i j, st =>
    match st.objs i, st.objs j with
    | some o, some o' =>
      if i = j then st
      else ((st.unmap o.data).put i (some { o with data := o'.data, size := o'.size })).put j (some { o' with data := none })
    | _, _ => st
  | .destroy i, st =>
    match st.objs i with
    | some o => (st.unmap o.data).put i none
    | none => st

def mrun : List MOp → MState → MState
  | [], st => st
  | op :: ops, st => mrun ops (mstep op st)

end Pigo.Files
