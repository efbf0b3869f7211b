/-!
# Faults, bytes and mapped memory

The outcome monad of the model and the memory a mapped file offers.
-/

namespace Pigo

/-- A C `char` seen as a byte.  Digit/comment/newline tests give the same answer for signed and
unsigned `char` (bytes ≥ 128 are never digits). -/
abbrev Byte := UInt8

/-- How an execution can go wrong. -/
inductive Fault
  /-- a load or store outside of allocated or mapped memory (undefined behaviour) -/
  | oob
  /-- signed integer overflow (undefined behaviour) -/
  | overflow
  /-- a `pigo::Error` was thrown (pigo.hpp 24–28) -/
  | error
  /-- a `pigo::NotYetImplemented` was thrown (pigo.hpp 31–35) -/
  | nyi
  /-- the model's loop counter ran out (the code would not terminate within the counter) -/
  | fuel
  deriving DecidableEq, Repr

/-- Outcome of a model computation. -/
abbrev M := Except Fault

/-- Turns `Except` into a decidable-equality type for closed examples. -/
instance {ε α} [DecidableEq ε] [DecidableEq α] : DecidableEq (Except ε α) := fun a b => by
  cases a with
  | error a => cases b with
    | error b => exact if h : a = b then isTrue (h ▸ rfl) else isFalse (fun h' => h (Except.error.inj h'))
    | ok b => exact isFalse (fun h => nomatch h)
  | ok a => cases b with
    | error b => exact isFalse (fun h => nomatch h)
    | ok b => exact if h : a = b then isTrue (h ▸ rfl) else isFalse (fun h' => h (Except.ok.inj h'))

/-- The value of a sum or product of ordinals whose exact value is `x`: computed in an unsigned type of `ow` bits, or, if that
is narrower than `int`, in `int` after promotion, where it does not wrap (used for `order_*m_` and `e*order_+idx`,
impl/tensor.impl.hpp 52, 321, 358, 403, tensor.hpp 109).  Simplified: for 16-bit ordinals a product of 2^31 or more overflows
`int`; the model takes its exact value. -/
def inOrd (ow x : Nat) : Nat := if ow < 32 then x else x % 2 ^ ow

theorem inOrd_lt {ow x : Nat} (h : x < 2 ^ ow) : inOrd ow x = x := by
  unfold inOrd; split
  · rfl
  · exact Nat.mod_eq_of_lt h

theorem inOrd_bytes {ob x : Nat} (h : x < 256 ^ ob) : inOrd (8 * ob) x = x :=
  inOrd_lt (by rw [Nat.pow_mul]; exact h)

/-- Ordinals of fewer than 4 bytes never wrap. -/
theorem inOrd_fit {ob x : Nat} (h : ob < 4 ∨ x < 256 ^ ob) : inOrd (8 * ob) x = x :=
  h.elim (fun h => if_pos (by omega)) inOrd_bytes

theorem inOrd_small {ob x : Nat} (h : (ob < 4 ∧ x < 2 ^ 31) ∨ x < 256 ^ ob) : inOrd (8 * ob) x = x :=
  inOrd_fit (h.imp_left And.left)

theorem inOrd_wrap {ob x : Nat} (h : 4 ≤ ob) (hx : 256 ^ ob ≤ x) : inOrd (8 * ob) x < x := by
  rw [inOrd, if_neg (by omega)]
  exact Nat.lt_of_lt_of_le (Nat.mod_lt _ (Nat.two_pow_pos _)) (by rw [Nat.pow_mul]; exact hx)

theorem inOrd_le (ow x : Nat) : inOrd ow x ≤ x := by
  unfold inOrd; split
  · exact Nat.le_refl _
  · exact Nat.mod_le _ _

theorem inOrd_64 (x : Nat) : inOrd 64 x = x % 2 ^ 64 := rfl

/-- The memory behind a mapped file (impl/pigo.impl.hpp 46–76: `mmap` of `size` bytes).
`bytes` is the file content, `pad` the number of readable bytes the kernel maps after it
(rest of the last page, zero filled). -/
structure Mapping where
  bytes : List Byte
  pad : Nat
  deriving Repr, DecidableEq

/-- `*(data_ + p)`: file content, zero padding, or a fault. -/
def Mapping.get (μ : Mapping) (p : Nat) : M Byte :=
  match μ.bytes[p]? with
  | some b => .ok b
  | none => if p < μ.bytes.length + μ.pad then .ok 0 else .error .oob

/-- Number of file bytes. -/
abbrev Mapping.len (μ : Mapping) : Nat := μ.bytes.length

theorem Mapping.get_lt (μ : Mapping) {p : Nat} (h : p < μ.bytes.length) :
    μ.get p = .ok μ.bytes[p] := by
  simp [Mapping.get, h]

theorem Mapping.get_pad (μ : Mapping) {p : Nat} (h : μ.bytes.length ≤ p)
    (h' : p < μ.bytes.length + μ.pad) : μ.get p = .ok 0 := by
  simp [Mapping.get, h, h']

theorem Mapping.get_oob (μ : Mapping) {p : Nat} (h : μ.bytes.length + μ.pad ≤ p) :
    μ.get p = .error .oob := by
  have : μ.bytes.length ≤ p := by omega
  simp [Mapping.get, this]; omega

/-- Every position up to the end of the mapping can be read. -/
theorem Mapping.get_readable (μ : Mapping) {p : Nat} (h : p < μ.bytes.length + μ.pad) :
    ∃ b, μ.get p = .ok b := by
  by_cases hp : p < μ.bytes.length
  · exact ⟨_, μ.get_lt hp⟩
  · exact ⟨_, μ.get_pad (by omega) h⟩

/-- Spelling bytes of an ASCII string in examples. -/
def str (s : String) : List Byte := s.toList.map (fun c => UInt8.ofNat c.toNat)

@[simp] theorem ok_bind {ε α β} (a : α) (f : α → Except ε β) : (Except.ok a >>= f) = f a := rfl
@[simp] theorem error_bind {ε α β} (e : ε) (f : α → Except ε β) :
    ((Except.error e : Except ε α) >>= f) = Except.error e := rfl
@[simp] theorem pure_eq_ok {ε α} (a : α) : (pure a : Except ε α) = Except.ok a := rfl
@[simp] theorem throw_eq_error {ε α} (e : ε) : (throw e : Except ε α) = Except.error e := rfl

end Pigo
