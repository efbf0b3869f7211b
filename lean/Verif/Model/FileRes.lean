import Verif.Model.FileObj

/-!
# Descriptors and mappings held by the process

The constructor of `File` (impl/pigo.impl.hpp 22–77) and `~File` (79–85) again, with the number of open descriptors and of
mappings of the process.  A descriptor is taken by `fopen` (38) and `open` (49–54) and given back by `fclose` (42, 70), also when `fclose`
reports an error (POSIX: the stream is dissociated from its file in any case).  No `throw` in the constructor is preceded by a
`fclose` of the stream in use, and the destructor does not run when the constructor throws.
-/

namespace Pigo.Files

/-- The process: the files, the open descriptors, the limit on them (`RLIMIT_NOFILE`), the mappings. -/
structure Proc where
  fs : FS
  fds : Nat
  limit : Nat
  maps : Nat

/-- The part of the constructor that creates the file (impl/pigo.impl.hpp 36–43). -/
def createP (sys : Sys) (os : Proc) (fn : String) (maxSize : Nat) : Except Err Unit × Proc :=
  if sys.fopen ∨ os.limit ≤ os.fds then (.error .openWrite, os)
  else
    let os1 := { os with fs := os.fs.put fn [], fds := os.fds + 1 }
    if sys.fseek then (.error .seekSize, os1)
    else if sys.fputc then (.error .setSize, os1)
    else
      let os2 := { os1 with fs := os.fs.put fn (List.replicate (maxSize - 1) 0 ++ [1]), fds := os1.fds - 1 }
      if sys.fclose then (.error .closeNew, os2) else (.ok (), os2)

/-- The rest of the constructor (impl/pigo.impl.hpp 45–76). -/
def mapFileP (sys : Sys) (os : Proc) (fn : String) (mode : Mode) (maxSize : Nat) : Except Err FileObj × Proc :=
  match os.fs fn with
  | none => (.error .openRead, os)
  | some c =>
    if sys.openFd ∨ os.limit ≤ os.fds then (.error .openRead, os)
    else
      let os1 := { os with fds := os.fds + 1 }
      if sys.fdopen then (.error .fdopen, os1)
      else if sys.seekEnd then (.error .seekEnd, os1)
      else if sys.ftell then (.error .invalidSize, os1)
      else if mode = .write ∧ c.length ≠ maxSize then (.error .wrongSize, os1)
      else if sys.mmap ∨ c.length = 0 then (.error .mmap, os1)
      else
        let os2 := { os1 with maps := os1.maps + 1, fds := os1.fds - 1 }
        if sys.fclose2 then (.error .fclose, os2)
        else if sys.madvise then (.error .madvise, os2)
        else (seek { data := c, size := c.length, fp := 0, fn := fn, writeable := decide (mode = .write) } 0, os2)

/-- `File(fn, mode, max_size)` (impl/pigo.impl.hpp 22–77). -/
def openP (sys : Sys) (os : Proc) (fn : String) (mode : Mode) (maxSize : Nat) : Except Err FileObj × Proc :=
  match mode with
  | .write =>
    if maxSize = 0 then (.error .maxSizeTooLow, os)
    else match createP sys os fn maxSize with
      | (.error e, os) => (.error e, os)
      | (.ok _, os) => mapFileP sys os fn .write maxSize
  | .read =>
    if maxSize > 0 then (.error .maxSizeOnlyWrite, os)
    else mapFileP sys os fn .read maxSize

/-- `~File` (impl/pigo.impl.hpp 79–85) of an object that owns its mapping. -/
def closeP (os : Proc) : Proc := { os with maps := os.maps - 1 }

/-- A use of a file: constructed, used (a file open for writing gets the bytes `out`), destroyed. -/
structure Use where
  fn : String
  mode : Mode
  maxSize : Nat
  sys : Sys
  out : Nat → UInt8

/-- One use: what `save`, `write` and the loaders do with their `File` (it is a local variable of theirs, or of the constructor
that calls them). -/
def useP (u : Use) (os : Proc) : Option Err × Proc :=
  match openP u.sys os u.fn u.mode u.maxSize with
  | (.error e, os) => (some e, os)
  | (.ok _, os) => (none, closeP (match u.mode with
      | .write => { os with fs := os.fs.put u.fn ((List.range u.maxSize).map u.out) }
      | .read => os))

/-- A history of uses: the exceptions, and the process afterwards. -/
def usesP : List Use → Proc → List (Option Err) × Proc
  | [], os => ([], os)
  | u :: us, os =>
    let r := useP u os
    let rs := usesP us r.2
    (r.1 :: rs.1, rs.2)

end Pigo.Files
