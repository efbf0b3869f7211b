import Verif.Base.Basic

/-!
# `FileReader` (pigo.hpp 51–264, impl/pigo.impl.hpp 306–625)

A reader is a pair of offsets `d` (current position) and `e` (`end`) into a mapped file.
Every `*d` in the code is a `Mapping.get`, also the unguarded ones.
-/

namespace Pigo

/-- `'\n'` -/
abbrev nl : Byte := 10

/-- `*d >= '0' && *d <= '9'` -/
def isDigit (b : Byte) : Bool := 48 ≤ b && b ≤ 57

/-- `*d == '%' || *d == '#'` -/
def isCom (b : Byte) : Bool := b == 37 || b == 35

/-- `*d == '+' || *d == '-'` -/
def isSign (b : Byte) : Bool := b == 43 || b == 45

/-- The character class of `move_to_fp`/`move_to_non_fp` (impl/pigo.impl.hpp 385–395):
digits, `e`, `E`, `-`, `+`, `.` -/
def isFp (b : Byte) : Bool := isDigit b || b == 101 || b == 69 || b == 45 || b == 43 || b == 46

/-- Value of a digit character, `*d-'0'`. -/
def digitVal (b : Byte) : Nat := b.toNat - 48

/-- `class FileReader` (pigo.hpp 51–64): `d` current position, `e` the field `end`. -/
structure Reader where
  d : Nat
  e : Nat
  deriving Repr, DecidableEq

namespace Reader

/-- `++d` -/
abbrev adv (r : Reader) : Reader := { r with d := r.d + 1 }

/-- `good()` (pigo.hpp 190) -/
def good (r : Reader) : Bool := decide (r.d < r.e)

/-- `size()` (pigo.hpp 204).  Simplified for `d > end` (only the reader of the second half of a truncated DiGraph file, which starts in the padding): the code's
`end - d` wraps to a huge `size_t`; the sum in `operator+` is then beyond `end` (or, with one thread, `end` itself) and clamped there, as with 0 here. -/
def size (r : Reader) : Nat := r.e - r.d

/-- `operator+(size_t)` (pigo.hpp 161–167); also `operator+=` (169–173). -/
def plus (r : Reader) (s : Nat) : Reader := { r with d := if r.d + s > r.e then r.e else r.d + s }

/-- `smaller_end` (pigo.hpp 182–184) -/
def smallerEnd (r rhs : Reader) : Reader := if rhs.d < r.e then { r with e := rhs.d } else r

end Reader

variable (μ : Mapping)

/-- `while (d < end && P(*d)) ++d;` with loop counter. -/
def scanN (P : Byte → Bool) : Nat → Reader → M Reader
  | 0, r => .ok r
  | n+1, r =>
    if r.d < r.e then do
      let b ← μ.get r.d
      if P b then scanN P n r.adv else .ok r
    else .ok r

/-- `while (d < end && P(*d)) ++d;`  The counter `end - d` is exact. -/
def scan (P : Byte → Bool) (r : Reader) : M Reader := scanN μ P (r.e - r.d) r

/-- `move_to(c)` (pigo.hpp 155–158) -/
def moveTo (c : Byte) (r : Reader) : M Reader := do
  let r ← if r.d < r.e then do
      let b ← μ.get r.d
      if b == c then .ok r.adv else .ok r
    else .ok r
  scan μ (fun b => b != c) r

/-- `peek()` (pigo.hpp 209–212) -/
def peek (r : Reader) : M Byte := if r.d = r.e then .ok 0 else μ.get r.d

/-- `at_nl_or_eol()` (pigo.hpp 223–226) -/
def atNlOrEol (r : Reader) : M Bool :=
  if r.d = r.e then .ok true else do
    let b ← μ.get r.d
    .ok (b == nl || isCom b)

/-- `at_zero()` (pigo.hpp 232–237) -/
def atZero (r : Reader) : M Bool :=
  if r.d ≥ r.e + 1 then .ok false else do
    let b ← μ.get r.d
    if b != 48 then .ok false else do
      let b' ← μ.get (r.d + 1)
      if isDigit b' then .ok false else .ok true

/-- inner loop of `skip_comments`: `while (d < end && (*d++ != '\n')) { }`
(impl/pigo.impl.hpp 309) -/
def skipLineN : Nat → Reader → M Reader
  | 0, r => .ok r
  | n+1, r =>
    if r.d < r.e then do
      let b ← μ.get r.d
      if b != nl then skipLineN n r.adv else .ok r.adv
    else .ok r

/-- outer loop of `skip_comments` (impl/pigo.impl.hpp 306–310) -/
def skipCommentsN : Nat → Reader → M Reader
  | 0, r => .ok r
  | n+1, r =>
    if r.d < r.e then do
      let b ← μ.get r.d
      if isCom b then do
        let r ← skipLineN μ (r.e - r.d) r
        skipCommentsN n r
      else .ok r
    else .ok r

/-- `skip_comments()` (impl/pigo.impl.hpp 306–310) -/
def skipComments (r : Reader) : M Reader := skipCommentsN μ (r.e - r.d) r

/-- second loop of `read_int` (impl/pigo.impl.hpp 319–322).  `wrap` is the conversion to the result
type of `res*10 + (*d-'0')`: reduction modulo `2^w` for unsigned types, overflow check for signed ones. -/
def readDigitsN (wrap : Nat → M Nat) : Nat → Nat → Reader → M (Nat × Reader)
  | 0, res, r => .ok (res, r)
  | n+1, res, r =>
    if r.d < r.e then do
      let b ← μ.get r.d
      if isDigit b then do
        let res ← wrap (res * 10 + digitVal b)
        readDigitsN wrap n res r.adv
      else .ok (res, r)
    else .ok (res, r)

/-- `read_int<T>()` (impl/pigo.impl.hpp 312–324) -/
def readInt (wrap : Nat → M Nat) (r : Reader) : M (Nat × Reader) := do
  let r ← scan μ (fun b => !isDigit b) r
  readDigitsN μ wrap (r.e - r.d) 0 r

/-- Conversion to an unsigned type of `w` bits. -/
def wrapU (w : Nat) (n : Nat) : M Nat := .ok (n % 2 ^ w)

/-- Conversion to a signed type of `w` bits, overflow being undefined behaviour. -/
def wrapS (w : Nat) (n : Nat) : M Nat := if n < 2 ^ (w - 1) then .ok n else .error .overflow

/-- `read_sign` (pigo.hpp 97–100); does not move. -/
def readNeg (r : Reader) : M Bool := do
  let b ← μ.get r.d
  .ok (b == 45)

/-- `at_end_of_line()` (impl/pigo.impl.hpp 369–378), loop on `td` -/
def atEndOfLineN : Nat → Nat → Nat → M Bool
  | 0, _, _ => .ok true
  | n+1, td, e =>
    if td < e then do
      let b ← μ.get td
      if b != nl then
        if b != 32 && b != 13 then .ok false else atEndOfLineN n (td+1) e
      else .ok true
    else .ok true

/-- `at_end_of_line()` (impl/pigo.impl.hpp 369–378) -/
def atEndOfLine (r : Reader) : M Bool := atEndOfLineN μ (r.e - r.d) r.d r.e

/-- `move_to_non_int()` (impl/pigo.impl.hpp 380–383) -/
def moveToNonInt (r : Reader) : M Reader := scan μ isDigit r

/-- `move_to_non_fp()` (impl/pigo.impl.hpp 385–389) -/
def moveToNonFp (r : Reader) : M Reader := scan μ isFp r

/-- `move_to_fp()` (impl/pigo.impl.hpp 391–395) -/
def moveToFp (r : Reader) : M Reader := scan μ (fun b => !isFp b) r

/-- `if (*d == '%' || *d == '#') skip_comments();` (unguarded load) -/
def skipIfCom (r : Reader) : M Reader := do
  let b ← μ.get r.d
  if isCom b then skipComments μ r else .ok r

/-- loop of `move_to_first_int` (impl/pigo.impl.hpp 401–404) and, with a different stop set,
of `move_to_next_signed_int` (423–426): `while (d < end && !stop(*d)) { ++d; if (comment) skip_comments(); }` -/
def firstN (stop : Byte → Bool) : Nat → Reader → M Reader
  | 0, r => .ok r
  | n+1, r =>
    if r.d < r.e then do
      let b ← μ.get r.d
      if stop b then .ok r else do
        let r ← skipIfCom μ r.adv
        firstN stop n r
    else .ok r

/-- `move_to_first_int()` (impl/pigo.impl.hpp 397–405) -/
def moveToFirstInt (r : Reader) : M Reader := do
  let r ← skipIfCom μ r
  firstN μ isDigit (r.e - r.d) r

/-- `move_to_next_int()` (impl/pigo.impl.hpp 407–414) -/
def moveToNextInt (r : Reader) : M Reader := do
  let r ← moveToNonInt μ r
  moveToFirstInt μ r

/-- `move_to_next_signed_int()` (impl/pigo.impl.hpp 416–427); the first load and `++d` are unguarded. -/
def moveToNextSignedInt (r : Reader) : M Reader := do
  let b ← μ.get r.d
  let r := if isSign b then r.adv else r
  let r ← moveToNonInt μ r
  let r ← skipIfCom μ r
  firstN μ (fun b => isDigit b || isSign b) (r.e - r.d) r

/-- `move_to_eol()` (impl/pigo.impl.hpp 500–503) -/
def moveToEol (r : Reader) : M Reader := scan μ (fun b => b != nl) r

/-- The last loop of `move_to_next_int_or_nl` (impl/pigo.impl.hpp 490–497):
`while (d < end && !digit && *d != '\n') { ++d; if (comment) { skip_comments(); --d; return; } }`. -/
def intOrNlN : Nat → Reader → M Reader
  | 0, r => .ok r
  | n+1, r =>
    if r.d < r.e then do
      let b ← μ.get r.d
      if isDigit b || b == nl then .ok r else do
        let r := r.adv
        let b ← μ.get r.d
        if isCom b then do
          let r ← skipComments μ r
          .ok { r with d := r.d - 1 }
        else intOrNlN n r
    else .ok r

/-- `d < end && *d` satisfies `P` (the guarded tests of `move_to_next_int_or_nl`, impl/pigo.impl.hpp 477, 480). -/
def guarded (P : Byte → Bool) (r : Reader) : M Bool :=
  if r.d < r.e then do
    let b ← μ.get r.d
    .ok (P b)
  else .ok false

/-- The end of `move_to_next_int_or_nl` (impl/pigo.impl.hpp 485–497). -/
def intOrNlRest (r : Reader) : M Reader := do
  let b ← μ.get r.d
  if isCom b then do
    let r ← skipComments μ r
    .ok { r with d := r.d - 1 }
  else intOrNlN μ (r.e - r.d) r

/-- `move_to_next_int_or_nl()` (impl/pigo.impl.hpp 474–498) -/
def moveToNextIntOrNl (r : Reader) : M Reader := do
  let atInt ← guarded μ isDigit r
  let r ← moveToNonInt μ r
  let atNl ← guarded μ (· == nl) r
  if atNl && atInt then .ok r
  else intOrNlRest μ (if atNl then r.adv else r)

/-- Reads `n` bytes from position `p` (the `std::string d_str { d, d+s.size() }` of `at_str`). -/
def getBytes : Nat → Nat → M (List Byte)
  | 0, _ => .ok []
  | n+1, p => do
    let b ← μ.get p
    let bs ← getBytes n (p+1)
    .ok (b :: bs)

/-- `at_str(s)` (impl/pigo.impl.hpp 505–511) -/
def atStr (s : List Byte) (r : Reader) : M Bool :=
  if r.d + s.length ≥ r.e then .ok false else do
    let t ← getBytes μ s.length r.d
    .ok (t == s)

end Pigo
