import Verif.Tests.Data
import Verif.Props.FindOffsets
import Verif.Props.Container

/-!
# The project's tests of the reader and of the file (tests/base)

The tests call the reader on a `std::string`, which is followed by one NUL byte (`pad := 1`).  `EQ(r.d-in_start, k)` is
`d = k` below.
-/

namespace Pigo.Tests

/-- The text of most tests of test_file_reader.cpp. -/
def text : Mapping := ⟨str "# Comment field\n2 3 4\n# Comment\n%Next comment\n9 9 3\n123 321\n", 1⟩

/-- `skip_comments` (test_file_reader.cpp 16–38). -/
example : skipComments text (fileReader text) = .ok ⟨16, 60⟩ ∧ skipComments text ⟨16, 60⟩ = .ok ⟨16, 60⟩ ∧
    skipComments text ((Reader.mk 16 60).plus 6) = .ok ⟨46, 60⟩ := by decide +kernel

/-- `read_int` (test_file_reader.cpp 40–60). -/
example : (do
    let (a, r) ← readInt text (wrapU 32) ((fileReader text).plus 46)
    let (b, r) ← readInt text (wrapU 32) r
    let (c, r) ← readInt text (wrapU 32) r
    let (d, r) ← readInt text (wrapU 32) r
    let (e, _) ← readInt text (wrapU 32) r
    pure [a, b, c, d, e]) = Except.ok [9, 9, 3, 123, 321] := by decide +kernel

/-- The text of `at_eol`. -/
def textEol : Mapping := ⟨str "# Comment field\n2 3 4\n# Comment\n%Next co   \r\n9 9 3\n123 321\n", 1⟩

/-- `at_eol` (test_file_reader.cpp 62–78). -/
example : atEndOfLine textEol (fileReader textEol) = .ok false ∧ atEndOfLine textEol ((fileReader textEol).plus 40) = .ok true := by
  decide +kernel

/-- `move_to_non_int` (test_file_reader.cpp 80–103). -/
example : moveToNonInt text (fileReader text) = .ok ⟨0, 60⟩ ∧ moveToNonInt text ((Reader.mk 0 60).plus 16) = .ok ⟨17, 60⟩ ∧
    moveToNonInt text ((Reader.mk 17 60).plus (53 - 17)) = .ok ⟨55, 60⟩ := by decide +kernel

/-- The text of `move_to_next_int`. -/
def textNext : Mapping := ⟨str "# Comment field\n2 3 4\n# Comment\n%Next comment\n9 9 3\n123 #NEW\nmore   321\n", 1⟩

/-- `move_to_next_int` (test_file_reader.cpp 105–129). -/
example : moveToNextInt textNext (fileReader textNext) = .ok ⟨16, 72⟩ ∧ moveToNextInt textNext ⟨16, 72⟩ = .ok ⟨18, 72⟩ ∧
    moveToNextInt textNext ⟨18, 72⟩ = .ok ⟨20, 72⟩ ∧ moveToNextInt textNext ((Reader.mk 20 72).plus (53 - 20)) = .ok ⟨68, 72⟩ := by
  decide +kernel

/-- `copying` (test_file_reader.cpp 131–149). -/
example : (((fileReader text).plus 10).plus 5).d = 15 ∧ ((fileReader text).plus 10).d = 10 := by decide +kernel

/-- The text of `good`. -/
def textGood : Mapping := ⟨str "# Comment field\n2 3 4\n# Co 4 5 \n%Next comment\n9 9 3\n123 321\n", 1⟩

/-- `good` (test_file_reader.cpp 151–167). -/
example : moveToNextInt textGood ((fileReader textGood).plus 20) = .ok ⟨46, 60⟩ := by decide +kernel

/-- The text of `move_in_comment`. -/
def textIn : Mapping := ⟨str "# Comment field\n2 3 4\n#2 999 5 \n%Next comment\n9 9 3\n123 321\n", 1⟩

/-- `move_in_comment` (test_file_reader.cpp 169–187). -/
example : moveToNextInt textIn ((fileReader textIn).plus 22) = .ok ⟨46, 60⟩ ∧ (Reader.mk 46 60).size = 59 + 1 - 46 := by decide +kernel

/-- `find_offsets('\n')` on a whole file (C07). -/
theorem newlines (bs : List Byte) (pad T : Nat) (hpad : 0 < pad) (hT : 0 < T) (out : M (List Nat))
    (hrun : FindOffsets ⟨bs, pad⟩ nl T (fileReader ⟨bs, pad⟩) out) :
    out = .ok ((List.range bs.length).filter (fun i => decide (0 < i ∧ bs[0 + i]? = some nl))) := by
  refine C07_find_offsets_partial ⟨bs, pad⟩ (fileReader ⟨bs, pad⟩) ⟨Nat.zero_le _, Nat.le_refl _⟩
    (by show bs.length < bs.length + pad; omega) nl ?_ T hT out hrun
  show Mapping.get ⟨bs, pad⟩ bs.length ≠ .ok nl
  simp [Mapping.get, hpad]
  decide

/-- The newlines of nl.txt. -/
theorem nlTxt_newlines : (List.range nlTxt.length).filter (fun i => decide (0 < i ∧ nlTxt[0 + i]? = some nl)) =
    [48, 51, 80, 97, 118, 175, 194, 231, 268, 301, 302, 357, 406, 437, 470, 481, 486, 499, 510, 513, 514, 515] := by decide +kernel

/-- `count_nl` (test_count_nl.cpp 19–31) with any number of threads in any schedule: 22 offsets, the first 48, the last two 514 and
515. -/
example (pad T : Nat) (hpad : 0 < pad) (hT : 0 < T) (out : M (List Nat))
    (hrun : FindOffsets ⟨nlTxt, pad⟩ nl T (fileReader ⟨nlTxt, pad⟩) out) :
    ∃ nls, out = .ok nls ∧ nls.length = 22 ∧ nls[0]? = some 48 ∧ nls[20]? = some 514 ∧ nls[21]? = some 515 :=
  ⟨_, (newlines nlTxt pad T hpad hT out hrun).trans (congrArg _ nlTxt_newlines), by decide, by decide, by decide, by decide⟩

/-- `file_size` (test_file_io.cpp 83–89) and `file_reading` (70–81): the content of the file, which the mapping shows. -/
example : fileTxt.length = 155 ∧ str ("Written by GPT2, BASED on a novel by GPT5, this book covers the events of the last three years of " ++
    "life, and their impact on modern science and technology.") <+: fileTxt := by decide +kernel

end Pigo.Tests
