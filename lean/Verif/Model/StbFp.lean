import Verif.Model.Stb
import Verif.Spec.Stb
import Mathlib.Data.Int.Log

/-!
# The floating point part of printing (impl/stb.impl.hpp 399–500, 554–562)

`stbsp__raise_to_power10` and `stbsp__ddtoS64`.  A double is the rational number it stands for.  `rnd` is the rounding of
the hardware: every arithmetic operation computes the exact result and rounds it (binary64 evaluation, no contraction into
fused operations).  The values here are not negative where the code looks at bit patterns; infinities do not occur in
the model (`rnd` is defined on all rationals).
-/

namespace Pigo.Stb

variable (rnd : ℚ → ℚ)

/-- `stbsp__bot` (impl/stb.impl.hpp 333–336): decimal significands and exponents of the literals -/
def bot : List (ℤ × ℤ) := [
  (1, 0), (1, 1), (1, 2), (1, 3), (1, 4), (1, 5), (1, 6), (1, 7), (1, 8), (1, 9), (1, 10), (1, 11), (1, 12), (1, 13),
  (1, 14), (1, 15), (1, 16), (1, 17), (1, 18), (1, 19), (1, 20), (1, 21), (1, 22)]

/-- `stbsp__negbot` (impl/stb.impl.hpp 337–340): decimal significands and exponents of the literals -/
def negbot : List (ℤ × ℤ) := [
  (1, -1), (1, -2), (1, -3), (1, -4), (1, -5), (1, -6), (1, -7), (1, -8), (1, -9), (1, -10), (1, -11), (1, -12),
  (1, -13), (1, -14), (1, -15), (1, -16), (1, -17), (1, -18), (1, -19), (1, -20), (1, -21), (1, -22)]

/-- `stbsp__negboterr` (impl/stb.impl.hpp 341–346): decimal significands and exponents of the literals -/
def negboterr : List (ℤ × ℤ) := [
  (-5551115123125783, -33), (-20816681711721684, -35), (-20816681711721686, -36), (-47921736023859299, -37),
  (-81803053914031305, -38), (45251888174113741, -39), (45251888174113739, -40), (-20922560830128471, -41),
  (-62281591457779853, -42), (-36432197315497743, -43), (60503030718060191, -44), (20113352370744385, -45),
  (-30373745563400371, -46), (11806906454401013, -48), (-77705399876661076, -48), (20902213275965398, -49),
  (-71542424054621921, -50), (-71542424054621926, -51), (24754073164739869, -52), (54846728545790429, -53),
  (92462547772103625, -54), (-48596774326570872, -55)]

/-- `stbsp__top` (impl/stb.impl.hpp 347–349): decimal significands and exponents of the literals -/
def top : List (ℤ × ℤ) := [
  (1, 23), (1, 46), (1, 69), (1, 92), (1, 115), (1, 138), (1, 161), (1, 184), (1, 207), (1, 230), (1, 253), (1, 276),
  (1, 299)]

/-- `stbsp__negtop` (impl/stb.impl.hpp 350–352): decimal significands and exponents of the literals -/
def negtop : List (ℤ × ℤ) := [
  (1, -23), (1, -46), (1, -69), (1, -92), (1, -115), (1, -138), (1, -161), (1, -184), (1, -207), (1, -230),
  (1, -253), (1, -276), (1, -299)]

/-- `stbsp__toperr` (impl/stb.impl.hpp 353–367): decimal significands and exponents of the literals -/
def toperr : List (ℤ × ℤ) := [
  (8388608, 0), (68601809640529717, 12), (-7253143638152921, 37), (-43377296974619174, 59), (-15559416129466825, 82),
  (-32841562489204913, 105), (-37745893248228135, 128), (-17356668416969134, 151), (-38893577551088374, 174),
  (-99566444326005119, 197), (63641293062232429, 220), (-52069140800249813, 243), (-52504760255204387, 266)]

/-- `stbsp__negtoperr` (impl/stb.impl.hpp 368–373): decimal significands and exponents of the literals -/
def negtoperr : List (ℤ × ℤ) := [
  (39565301985100693, -56), (-2299904345391321, -78), (36506201437945798, -102), (11875228833981544, -125),
  (-50644902316928607, -148), (-67156837247865426, -171), (-2812077463003139, -193), (-57778912386589953, -217),
  (74997100559334532, -240), (-46439668915134491, -263), (-63691100762962136, -286), (-9436808465446358, -308),
  (80970921678014997, -333)]

/-- The double a table entry stands for: the compiler rounds the literal. -/
def lit (t : List (ℤ × ℤ)) (k : Nat) : M ℚ :=
  match t[k]? with
  | some (m, e) => .ok (rnd ((m : ℚ) * (10 : ℚ) ^ e))
  | none => .error .oob

/-- `COPYFP(bt, x); bt &= ((~(uint64)0) << 27); COPYFP(hi, bt);` (impl/stb.impl.hpp 404–410) for `x ≥ 0`: clears the 27 low
bits of the significand, i.e. truncates `x` to a multiple of 2^27 units in the last place (see `mask_bits`). -/
def mask (x : ℚ) : ℚ :=
  let q : ℚ := (2 : ℚ) ^ (max (Int.log 2 x) (-1022) - 25)
  (⌊x / q⌋ : ℚ) * q

/-- `stbsp__ddmulthi` (impl/stb.impl.hpp 399–413) -/
def ddMultHi (xh yh : ℚ) : ℚ × ℚ :=
  let oh := rnd (xh * yh)
  let ahi := mask xh
  let alo := rnd (xh - ahi)
  let bhi := mask yh
  let blo := rnd (yh - bhi)
  (oh, rnd (rnd (rnd (rnd (rnd (ahi * bhi) - oh) + rnd (ahi * blo)) + rnd (alo * bhi)) + rnd (alo * blo)))

/-- `stbsp__ddrenorm` (impl/stb.impl.hpp 426–432) -/
def ddRenorm (oh ol : ℚ) : ℚ × ℚ :=
  let s := rnd (oh + ol)
  (s, rnd (ol - rnd (s - oh)))

/-- `stbsp__ddmultlo` (impl/stb.impl.hpp 434): the new `ol` -/
def ddMultLo (ol xh xl yh yl : ℚ) : ℚ := rnd (ol + rnd (rnd (xh * yl) + rnd (xl * yh)))

/-- `stbsp__ddmultlos` (impl/stb.impl.hpp 436): the new `ol` -/
def ddMultLos (ol xh yl : ℚ) : ℚ := rnd (ol + rnd (xh * yl))

/-- The last multiplication of `stbsp__raise_to_power10`, by `10^(±23·et)` (impl/stb.impl.hpp 463–470, 486–493). -/
def raiseTop (hi err : List (ℤ × ℤ)) (et : Nat) (ph pl : ℚ) : M (ℚ × ℚ) :=
  if et = 0 then .ok (ph, pl)
  else do
    let q := ddRenorm rnd ph pl
    let y ← lit rnd hi (et - 1)
    let ye ← lit rnd err (et - 1)
    let p2 := ddMultHi rnd q.1 y
    .ok (p2.1, ddMultLo rnd p2.2 q.1 q.2 y ye)

/-- The first multiplication for a negative power (impl/stb.impl.hpp 457–461). -/
def raiseNegBot (d : ℚ) (eb : Nat) : M (ℚ × ℚ) :=
  if eb = 0 then .ok (d, 0)
  else do
    let y ← lit rnd negbot (eb - 1)
    let ye ← lit rnd negboterr (eb - 1)
    let p := ddMultHi rnd d y
    .ok (p.1, ddMultLos rnd p.2 d ye)

/-- The first multiplication for a power above 22 (impl/stb.impl.hpp 472–485). -/
def raiseBot (d : ℚ) (eb : Nat) : M (ℚ × ℚ) :=
  if eb = 0 then .ok (d, 0)
  else do
    let y ← lit rnd bot (if eb > 22 then 22 else eb)
    let p := ddMultHi rnd d y
    if eb - (if eb > 22 then 22 else eb) = 0 then .ok p
    else do
      let q := ddRenorm rnd p.1 p.2
      let y ← lit rnd bot (eb - (if eb > 22 then 22 else eb))
      let p2 := ddMultHi rnd q.1 y
      .ok (p2.1, ddMultLos rnd p2.2 y q.2)

/-- `et = (e * 0x2c9) >> 14; if (et > 13) et = 13;` (impl/stb.impl.hpp 450–452) -/
def topIndex (e : Nat) : Nat := if e * 0x2c9 / 2 ^ 14 > 13 then 13 else e * 0x2c9 / 2 ^ 14

/-- `stbsp__raise_to_power10` (impl/stb.impl.hpp 438–500) -/
def raise (d : ℚ) (power : Int) : M (ℚ × ℚ) :=
  if 0 ≤ power ∧ power ≤ 22 then do
    let y ← lit rnd bot power.toNat
    let p := ddMultHi rnd d y
    .ok (ddRenorm rnd p.1 p.2)
  else if power < 0 then do
    let e := power.natAbs
    let p ← raiseNegBot rnd d (e - topIndex e * 23)
    let p ← raiseTop rnd negtop negtoperr (topIndex e) p.1 p.2
    .ok (ddRenorm rnd p.1 p.2)
  else do
    let e := power.natAbs
    let p ← raiseBot rnd d (e - topIndex e * 23)
    let p ← raiseTop rnd top toperr (topIndex e) p.1 p.2
    .ok (ddRenorm rnd p.1 p.2)

/-- `(stbsp__int64)x`: truncation towards zero; undefined if the result is not a 64 bit number. -/
def toInt64 (x : ℚ) : M ℤ :=
  let n : ℤ := if x < 0 then ⌈x⌉ else ⌊x⌋
  if -2 ^ 63 ≤ n ∧ n < 2 ^ 63 then .ok n else .error .overflow

/-- `stbsp__ddtoS64` (impl/stb.impl.hpp 415–424); a sum outside of the 64 bit numbers is a fault. -/
def ddToS64 (xh xl : ℚ) : M ℤ := do
  let ob ← toInt64 xh
  let vh := rnd ob
  let ahi := rnd (xh - vh)
  let t := rnd (ahi - xh)
  let alo := rnd (rnd (xh - rnd (ahi - t)) - rnd (vh + t))
  let o2 ← toInt64 (rnd (rnd (ahi + alo) + xl))
  if -2 ^ 63 ≤ ob + o2 ∧ ob + o2 < 2 ^ 63 then .ok (ob + o2) else .error .overflow

/-- The digits `stbsp__real_to_str` gets from the floating point unit (impl/stb.impl.hpp 555–559): `d · 10^p` as an integer.
A negative integer (which the code would reinterpret as unsigned) is a fault in the model. -/
def ddScale (a : Nat) (p : Int) : M Nat := do
  let h ← raise rnd (Spec.dblAbs a) p
  let b ← ddToS64 rnd h.1 h.2
  if b < 0 then .error .overflow else .ok b.toNat

/-- `stbsp_to_chars(buf, fv)` (impl/stb.impl.hpp 76–312) with its floating point arithmetic. -/
def printDouble (num buf v : Nat) : M (List Byte) := toChars (ddScale rnd) num buf v

end Pigo.Stb
