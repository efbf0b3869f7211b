import Verif.Spec.Text

/-!
# Specification: positions in a buffer
-/

namespace Pigo.Spec

/-- The byte at position `i` of the buffer satisfies `P`. -/
def ByteAt (buf : List Byte) (P : Byte → Prop) (i : Nat) : Prop := ∃ b, buf[i]? = some b ∧ P b

/-- `k` is the first position in `[a, b)` with `P`, or `b` if there is none. -/
structure IsFirst (P : Nat → Prop) (a b k : Nat) : Prop where
  ge : a ≤ k
  le : k ≤ b
  before : ∀ i, a ≤ i → i < k → ¬ P i
  at_ : k < b → P k

/-- Position `i` is inside a comment for a scan that starts at `a`: some `%` or `#` at or before `i`, with no
newline from there to `i`. -/
def InComment (buf : List Byte) (a i : Nat) : Prop :=
  ∃ j, a ≤ j ∧ j ≤ i ∧ ByteAt buf (fun b => isComment b = true) j ∧
    ∀ k, j ≤ k → k < i → ¬ ByteAt buf (fun b => b.toNat = '\n'.toNat) k

/-- A digit outside of comments. -/
def DataDigit (buf : List Byte) (a i : Nat) : Prop :=
  ByteAt buf (fun b => isDigit b = true) i ∧ ¬ InComment buf a i

/-- The bytes in `[a, b)`. -/
def slice (buf : List Byte) (a b : Nat) : List Byte := (buf.take b).drop a

theorem IsFirst.unique {P : Nat → Prop} {a b k k' : Nat} (h : IsFirst P a b k) (h' : IsFirst P a b k') : k = k' := by
  rcases Nat.lt_trichotomy k k' with h1 | h1 | h1
  · exact absurd (h.at_ (Nat.lt_of_lt_of_le h1 h'.le)) (h'.before k h.ge h1)
  · exact h1
  · exact absurd (h'.at_ (Nat.lt_of_lt_of_le h1 h.le)) (h.before k' h'.ge h1)

end Pigo.Spec
