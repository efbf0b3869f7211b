import Verif.Base.Basic
import Verif.Spec.Text

/-!
# Printing floating point numbers (impl/stb.impl.hpp)

`stbsp_to_chars` and `stbsp__real_to_str`: the integer part of the conversion, on the 64 bit pattern `v` of the double.
The multiplication of the double by a power of ten (`stbsp__raise_to_power10` and `stbsp__ddtoS64`) is a parameter
`scale` here; `Model/StbFp` gives the code's double-double arithmetic.
-/

namespace Pigo.Stb

/-- `stbsp__powten` (impl/stb.impl.hpp 375–396) -/
def powTable : List Nat :=
  [1, 10, 100, 1000, 10000, 100000, 1000000, 10000000, 100000000, 1000000000, 10000000000, 100000000000,
   1000000000000, 10000000000000, 100000000000000, 1000000000000000, 10000000000000000, 100000000000000000,
   1000000000000000000, 10000000000000000000]

/-- `stbsp__powten[k]` -/
def powten (k : Nat) : M Nat :=
  match powTable[k]? with
  | some p => .ok p
  | none => .error .oob

/-- `stbsp__digitpair.pair` (impl/stb.impl.hpp 43–54) -/
def pairTable : List Byte :=
  str ("00010203040506070809101112131415161718192021222324" ++
       "25262728293031323334353637383940414243444546474849" ++
       "50515253545556575859606162636465666768697071727374" ++
       "75767778798081828384858687888990919293949596979899")

/-- The two bytes at `pair[(n % 100) * 2]` (impl/stb.impl.hpp 624) -/
def digitPair (n : Nat) : List Byte := (pairTable.drop ((n % 100) * 2)).take 2

/-- What `stbsp__real_to_str` delivers: sign, position of the decimal point, digits. -/
structure RealStr where
  ng : Bool
  dp : Int
  ds : List Byte
  deriving DecidableEq, Repr

/-- `STBSP__SPECIAL` (impl/stb.impl.hpp 39) -/
def special : Int := 0x7000

/-- `while ((bits & v) == 0) { --expo; v >>= 1; }` (impl/stb.impl.hpp 536–543); the first argument is one more than the
index of the bit `v` tests.  With no bit set the loop of the code would not end. -/
def denormLoop (bits : Nat) : Nat → Int → M Int
  | 0, _ => .error .fuel
  | k+1, expo => if bits.testBit k then .ok expo else denormLoop bits k (expo - 1)

/-- The binary exponent of a nonzero finite double, biased (impl/stb.impl.hpp 513, 526–544). -/
def findExpo (v : Nat) : M Int :=
  if v / 2 ^ 52 % 2048 = 0 then denormLoop v 52 0 else .ok (v / 2 ^ 52 % 2048 : Nat)

/-- The estimate of the decimal exponent (impl/stb.impl.hpp 550–552); `tdiv` is C's division. -/
def tensEst (expo : Int) : Int :=
  let t := expo - 1023
  if t < 0 then (t * 617).tdiv 2048 else (t * 1233).tdiv 4096 + 1

/-- The loop counting the digits of `bits` (impl/stb.impl.hpp 571–575); `none` is the jump to `noround`. -/
def dgLoop (bits : Nat) : Nat → Nat → M (Option Nat)
  | 0, _ => .error .fuel
  | n+1, dg => do
    let p ← powten dg
    if bits ≥ p then
      if dg + 1 = 20 then .ok none else dgLoop bits n (dg + 1)
    else .ok (some dg)

/-- Rounding in integers (impl/stb.impl.hpp 565–589) for `frac_digits = 6`: new bits and decimal exponent.
`frac_digits` is a 32 bit unsigned value, the sum `bits + r/2` a 64 bit unsigned one. -/
def roundStep (bits : Nat) (tens : Int) : M (Nat × Int) :=
  let fd := ((tens + 6) % 2 ^ 32).toNat
  if fd < 24 then do
    let p9 ← powten 9
    let d ← dgLoop bits 20 (if bits ≥ p9 then 10 else 1)
    match d with
    | none => .ok (bits, tens)
    | some dg =>
      if fd < dg then
        if dg - fd ≥ 24 then .ok (bits, tens)
        else do
          let r ← powten (dg - fd)
          let top ← powten dg
          let b := (bits + r / 2) % 2 ^ 64
          .ok (b / r, if b ≥ top then tens + 1 else tens)
      else .ok (bits, tens)
  else .ok (bits, tens)

/-- `while ((n % 1000) == 0) n /= 1000;` (impl/stb.impl.hpp 601–603) -/
def killSmall : Nat → Nat → M Nat
  | 0, _ => .error .fuel
  | f+1, n => if n % 1000 = 0 then killSmall f (n / 1000) else .ok n

/-- `for (;;) { if (bits <= 0xffffffff) break; if (bits % 1000) goto donez; bits /= 1000; }` and the loop after it
(impl/stb.impl.hpp 594–604) -/
def killLarge : Nat → Nat → M Nat
  | 0, _ => .error .fuel
  | f+1, bits =>
    if bits ≤ 0xffffffff then killSmall (bits + 1) (bits % 2 ^ 32)
    else if bits % 1000 ≠ 0 then .ok bits
    else killLarge f (bits / 1000)

/-- Removal of trailing zeros, three at a time (impl/stb.impl.hpp 591–606). -/
def killZeros (bits : Nat) : M Nat := if bits ≠ 0 then killLarge (bits + 1) bits else .ok bits

/-- `while (n) { out -= 2; *(uint16*)out = pair[(n % 100) * 2]; n /= 100; e += 2; }` (impl/stb.impl.hpp 622–627); the
digits written so far are `out`. -/
def pairLoop : Nat → Nat → List Byte → List Byte
  | 0, _, out => out
  | f+1, n, out => if n = 0 then out else pairLoop f (n / 100) (digitPair n ++ out)

/-- `while (out != o) { *--out = '0'; ++e; }` (impl/stb.impl.hpp 635–638); `k` is `out - o`. -/
def zeroLoop : Nat → List Byte → List Byte
  | 0, out => out
  | k+1, out => zeroLoop k (48 :: out)

/-- The conversion to digits (impl/stb.impl.hpp 608–639); `out` are the digits written so far. -/
def digitLoop : Nat → Nat → List Byte → M (List Byte)
  | 0, _, _ => .error .fuel
  | f+1, bits, out =>
    let n := if bits ≥ 100000000 then bits % 100000000 else bits
    let bits' := if bits ≥ 100000000 then bits / 100000000 else 0
    let out' := pairLoop (n + 1) n out
    if bits' = 0 then
      match out' with
      | c :: t => if c = 48 then .ok t else .ok (c :: t)
      | [] => .ok []
    else
      -- o = out - 8 at the start of the chunk; writing past it would run to the start of memory
      if out'.length > out.length + 8 then .error .oob
      else digitLoop f bits' (zeroLoop (out.length + 8 - out'.length) out')

/-- The digits fill `num` downwards from position 64 (impl/stb.impl.hpp 609). -/
def toDigits (bits : Nat) : M (List Byte) := do
  let ds ← digitLoop (bits + 1) bits []
  if ds.length + 2 > 64 then .error .oob else .ok ds

/-- `stbsp__real_to_str(…, value, 6)` (impl/stb.impl.hpp 505–645).  `scale a p` is the integer the code's floating point
arithmetic makes of the (positive) double with pattern `a` times `10^p`. -/
def realToStr (scale : Nat → Int → M Nat) (v : Nat) : M RealStr :=
  let expo := v / 2 ^ 52 % 2048
  let ng := v.testBit 63
  if expo = 2047 then .ok ⟨ng, special, if v % 2 ^ 52 ≠ 0 then str "NaN" else str "Inf"⟩
  else if expo = 0 ∧ v * 2 % 2 ^ 64 = 0 then .ok ⟨ng, 1, str "0"⟩
  else do
    let ex ← findExpo v
    let bits ← scale (v % 2 ^ 63) (18 - tensEst ex)
    let (bits, tens) ← roundStep bits (if bits ≥ 1000000000000000000 then tensEst ex + 1 else tensEst ex)
    let bits ← killZeros bits
    let ds ← toDigits bits
    .ok ⟨ng, tens, ds⟩

/-- `while (i) { if ((((uintptr)s) & 3) == 0) break; *s++ = '0'; --i; }` (impl/stb.impl.hpp 129–134): the zeros written
and the number still to write; `a` is the address. -/
def fillHead : Nat → Nat → List Byte × Nat
  | 0, _ => ([], 0)
  | i+1, a => if a % 4 = 0 then ([], i + 1) else (48 :: (fillHead i (a + 1)).1, (fillHead i (a + 1)).2)

/-- `while (i >= 4) { *(uint32*)s = 0x30303030; s += 4; i -= 4; } while (i) { *s++ = '0'; --i; }` (impl/stb.impl.hpp
135–143) -/
def fillQuads : Nat → List Byte
  | i+4 => 48 :: 48 :: 48 :: 48 :: fillQuads i
  | i+1 => 48 :: fillQuads i
  | 0 => []

/-- The three loops writing `i` zeros at address `a` (impl/stb.impl.hpp 128–143, 170–192, 273–292). -/
def zeroFill (a i : Nat) : List Byte := (fillHead i a).1 ++ fillQuads (fillHead i a).2

/-- Copying a string, four bytes at a time and then one by one (impl/stb.impl.hpp 254–270). -/
def copyQuads : List Byte → List Byte
  | a :: b :: c :: d :: t => a :: b :: c :: d :: copyQuads t
  | t => t

/-- The text put into `num` from position 64 on and the number `tz` of zeros to follow (impl/stb.impl.hpp 118–225), for
precision 6 and no flags; `a` is the address `num + 64`. -/
def layout (a : Nat) (dp : Int) (ds : List Byte) : M (List Byte × Nat) :=
  let l := ds.length
  if dp ≤ 0 then
    -- 0.000*000xxxx
    let n := if (-dp).toNat > 6 then 6 else (-dp).toNat
    let l := if l + n > 6 then 6 - n else l
    .ok ([48, 46] ++ zeroFill (a + 2) n ++ ds.take l, 6 - (n + l))
  else if dp.toNat ≥ l then
    -- xxxx000*000.0; the copying loop tests at its end
    if l = 0 then .error .oob
    else .ok (ds ++ (if l < dp.toNat then zeroFill (a + l) (dp.toNat - l) else []) ++ [46], 6)
  else
    -- xxxxx.xxxx000*000
    let l := if l - dp.toNat > 6 then 6 + dp.toNat else l
    .ok (ds.take dp.toNat ++ [46] ++ (ds.take l).drop dp.toNat, 6 - (l - dp.toNat))

/-- `stbsp_to_chars(buf, fv)` (impl/stb.impl.hpp 76–312): the characters stored at `buf`, whose number is the result; a
zero byte is stored after them.  `num` is the address of the local array (512 bytes), `buf` the destination. -/
def toChars (scale : Nat → Int → M Nat) (num buf : Nat) (v : Nat) : M (List Byte) := do
  let rs ← realToStr scale v
  let lead : List Byte := if rs.ng then [45] else []
  if rs.dp = special then .ok (lead ++ copyQuads rs.ds)
  else do
    let (s, tz) ← layout (num + 64) rs.dp rs.ds
    if s.length > 448 then .error .oob
    else .ok (lead ++ copyQuads s ++ zeroFill (buf + lead.length + s.length) tz)

end Pigo.Stb
