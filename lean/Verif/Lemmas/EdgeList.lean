import Verif.Lemmas.Lines
import Verif.Model.Coo
import Verif.Spec.Edges

/-!
# Passes 1 and 2 of `read_el_` on a region made of lines
-/

namespace Pigo

variable {W : Type}

/-- Stored entries of a file entry under the flags of `cfg`. -/
abbrev storedC (cfg : Cfg) (e : Nat × Nat × W) : List (Nat × Nat × W) := Spec.stored cfg.sym cfg.ut cfg.sl e

/-- `tail` (text of a line after its second integer) holds the weight `w`: both the counting and the
setting version stay inside the line. -/
def WTail (wk : WKind W) (tail : List Byte) (w : W) : Prop :=
  ∀ μ e rest, View μ e (tail ++ nl :: rest) → Readable μ e →
    (∃ u', u' <:+ tail ∧ wk.read μ (rd e (tail ++ nl :: rest)) = .ok (w, rd e (u' ++ nl :: rest))) ∧
    (∃ u', u' <:+ tail ∧ wk.count μ (rd e (tail ++ nl :: rest)) = .ok (rd e (u' ++ nl :: rest)))

/-- The line `l` carries the entry `(x, y, w)` as seen by the scanner. -/
structure LineLaw (lw : Nat) (wk : WKind W) (l : List Byte) (en : Nat × Nat × W) : Prop where
  nonl : nl ∉ l
  hx : firstIntL l ≠ []
  xv : en.1 = decVal ((firstIntL l).takeWhile isDigit) % 2 ^ lw
  hy : nextIntL (firstIntL l) ≠ []
  yv : en.2.1 = decVal ((nextIntL (firstIntL l)).takeWhile isDigit) % 2 ^ lw
  wt : WTail wk ((nextIntL (firstIntL l)).dropWhile isDigit) en.2.2

/-- Weights are neither read nor stored. -/
structure WTrivial (wk : WKind W) : Prop where
  wgt : wk.wgt = false
  count : ∀ μ r, wk.count μ r = .ok r
  read : ∀ μ r, ∃ w, wk.read μ r = .ok (w, r)

theorem wNone_trivial : WTrivial wNone := ⟨rfl, fun _ _ => rfl, fun _ _ => ⟨(), rfl⟩⟩

variable {μ : Mapping} {e : Nat}

theorem dropWhile_idem (P : Byte → Bool) (s : List Byte) : (s.dropWhile P).dropWhile P = s.dropWhile P := by
  induction s with
  | nil => rfl
  | cons a s ih =>
    rw [List.dropWhile_cons]
    split
    · exact ih
    · rename_i h; rw [List.dropWhile_cons, if_neg h]

theorem nextIntL_dropWhile (s : List Byte) : nextIntL (s.dropWhile isDigit) = nextIntL s := by
  unfold nextIntL; rw [dropWhile_idem]

/-- reading the integer of a line -/
theorem readInt_line (lw : Nat) (b : Bool) (s0 u rest : List Byte) (hu : u = toStop isDigit b s0)
    (hne : u ≠ []) (v : View μ e (u ++ nl :: rest)) :
    readInt μ (wrapU lw) (rd e (u ++ nl :: rest)) =
      .ok (decVal (u.takeWhile isDigit) % 2 ^ lw, rd e (u.dropWhile isDigit ++ nl :: rest)) := by
  have ht : toDigitL (u ++ nl :: rest) = u ++ nl :: rest := by
    cases u with
    | nil => exact absurd rfl hne
    | cons c t =>
      have := (toStop_head isDigit b s0 c t hu.symm).1
      simp [toDigitL, this]
  rw [readInt_wrapU lw v, ht, takeWhile_append_nl _ isDigit_nl, dropWhile_append_nl _ isDigit_nl]

/-- The scanner on one line. -/
structure LineRun (μ : Mapping) (e : Nat) (lw : Nat) (wk : WKind W) (l rest : List Byte)
    (en : Nat × Nat × W) : Prop where
  ex : ∃ u1 u2 u3 u3',
    readInt μ (wrapU lw) (rd e (firstIntL l ++ nl :: rest)) = .ok (en.1, rd e (u1 ++ nl :: rest)) ∧
    moveToNextInt μ (rd e (u1 ++ nl :: rest)) = .ok (rd e (u2 ++ nl :: rest)) ∧
    readInt μ (wrapU lw) (rd e (u2 ++ nl :: rest)) = .ok (en.2.1, rd e (u3 ++ nl :: rest)) ∧
    wk.read μ (rd e (u3 ++ nl :: rest)) = .ok (en.2.2, rd e (u3' ++ nl :: rest)) ∧
    (rd e (u3' ++ nl :: rest)).good = true ∧
    moveToEol μ (rd e (u3' ++ nl :: rest)) = .ok (rd e (nl :: rest)) ∧
    (∃ u3'', wk.count μ (rd e (u3 ++ nl :: rest)) = .ok (rd e (u3'' ++ nl :: rest)) ∧
      (rd e (u3'' ++ nl :: rest)).good = true ∧
      moveToEol μ (rd e (u3'' ++ nl :: rest)) = .ok (rd e (nl :: rest))) ∧
    moveToNextInt μ (rd e (firstIntL l ++ nl :: rest)) = .ok (rd e (u2 ++ nl :: rest)) ∧
    (rd e (u2 ++ nl :: rest)).good = true ∧
    moveToEol μ (rd e (u2 ++ nl :: rest)) = .ok (rd e (nl :: rest)) ∧
    moveToNextInt μ (rd e (nl :: rest)) = .ok (rd e (firstIntL rest))

theorem lineRun {lw : Nat} {wk : WKind W} {l rest : List Byte} {en : Nat × Nat × W}
    (h : LineLaw lw wk l en) (v : View μ e (firstIntL l ++ nl :: rest)) (hr : Readable μ e) :
    LineRun μ e lw wk l rest en := by
  have n0 : nl ∉ firstIntL l := not_mem_firstInt h.nonl
  have n1 : nl ∉ (firstIntL l).dropWhile isDigit := not_mem_dropWhile _ n0
  have n2 : nl ∉ nextIntL (firstIntL l) := not_mem_firstInt n1
  have n3 : nl ∉ (nextIntL (firstIntL l)).dropWhile isDigit := not_mem_dropWhile _ n2
  have suf {a b : List Byte} (hs : a <:+ b) : a ++ nl :: rest <:+ b ++ nl :: rest := by
    obtain ⟨t, ht⟩ := hs; exact ⟨t, by rw [← ht]; simp⟩
  have s1 : (firstIntL l).dropWhile isDigit <:+ firstIntL l := dropWhile_suffix' _ _
  have s2 : nextIntL (firstIntL l) <:+ firstIntL l := (toStop_suffix _ _ _).trans s1
  have s3 : (nextIntL (firstIntL l)).dropWhile isDigit <:+ firstIntL l := (dropWhile_suffix' _ _).trans s2
  have v1 := v.of_suffix (suf s1)
  have v2 := v.of_suffix (suf s2)
  have v3 := v.of_suffix (suf s3)
  have vnl : View μ e (nl :: rest) := v.append
  obtain ⟨⟨u', hu', hread⟩, ⟨u'', hu'', hcount⟩⟩ := h.wt μ e rest v3 hr
  have v3' := v3.of_suffix (suf hu')
  have v3'' := v3.of_suffix (suf hu'')
  have eol {u : List Byte} (hn : nl ∉ u) (vu : View μ e (u ++ nl :: rest)) :
      moveToEol μ (rd e (u ++ nl :: rest)) = .ok (rd e (nl :: rest)) := by
    rw [moveToEol_eq vu, eolL_line _ _ hn]
  have gd {u : List Byte} (vu : View μ e (u ++ nl :: rest)) : (rd e (u ++ nl :: rest)).good = true := by
    rw [good_rd vu]; simp
  refine ⟨(firstIntL l).dropWhile isDigit, nextIntL (firstIntL l),
    (nextIntL (firstIntL l)).dropWhile isDigit, u', ?_, ?_, ?_, hread, gd v3', ?_, ⟨u'', hcount, gd v3'', ?_⟩, ?_, gd v2, ?_, ?_⟩
  · rw [readInt_line lw false l _ rest rfl h.hx v, h.xv]
  · rw [moveToNextInt_eq v1 hr, nextIntL_line _ _ n1 (by rw [nextIntL_dropWhile]; exact h.hy),
      nextIntL_dropWhile]
  · rw [readInt_line lw false _ _ rest rfl h.hy v2, h.yv]
  · exact eol (fun hm => n3 (hu'.subset hm)) v3'
  · exact eol (fun hm => n3 (hu''.subset hm)) v3''
  · rw [moveToNextInt_eq v hr, nextIntL_line _ _ n0 h.hy]
  · exact eol n2 v2
  · rw [moveToNextInt_eq vnl hr, nextIntL_nl]

/-- The stores of one entry, at position `p`. -/
def entryActs (wgt : Bool) (p : Nat) : List (Nat × Nat × W) → List (Act W)
  | [] => []
  | [(x, y, w)] => (if wgt then [.setW p w] else []) ++ [.setX p x, .setY p y]
  | (x, y, w) :: (x', y', _) :: _ =>
    (if wgt then [.setW p w] else []) ++ [.setX p x, .setY p y] ++
      ((if wgt then [.copyW (p+1) p] else []) ++ [.setY (p+1) y', .setX (p+1) x'])

/-- State of pass 2 after one entry. -/
def setLine (cfg : Cfg) (wgt : Bool) (st : SetSt W) (en : Nat × Nat × W) : SetSt W :=
  match storedC cfg en with
  | [] => st
  | (x, y, w) :: more =>
    { pos := st.pos + (more.length + 1), mr := upd st.mr x, mc := upd st.mc y,
      acts := st.acts ++ entryActs wgt st.pos ((x, y, w) :: more) }

section entry
variable {lw : Nat} {wk : WKind W} {l rest : List Byte} {en : Nat × Nat × W}

theorem countEntryN_line (cfg : Cfg) (h : LineRun μ e lw wk l rest en) (n pos : Nat) :
    countEntryN μ lw cfg wk (n+1) pos (rd e (firstIntL l ++ nl :: rest)) =
      if storedC cfg en = [] then countEntryN μ lw cfg wk n pos (rd e (firstIntL rest))
      else .ok (pos + (storedC cfg en).length, rd e (firstIntL rest)) := by
  obtain ⟨u1, u2, u3, u3', h1, h2, h3, h4, h5, h6, ⟨u3'', h7, h8, h9⟩, h10, h11, h12, h13⟩ := h.ex
  obtain ⟨x, y, w⟩ := en
  obtain ⟨sym, ut, sl⟩ := cfg
  simp only [countEntryN, h1, ok_bind, h2, h3, h7, h8, h9, h13]
  clear h h1 h2 h3 h4 h5 h6 h7 h8 h9 h10 h11 h12 h13
  simp only [storedC, Spec.stored]
  cases sym <;> cases ut <;> cases sl <;> rcases Nat.lt_trichotomy x y with hxy | hxy | hxy <;>
    simp_all [Nat.le_of_lt, Nat.not_lt_of_lt, Nat.ne_of_lt, Nat.ne_of_gt, Nat.not_le_of_lt, Nat.lt_irrefl]

theorem setEntryN_line (cfg : Cfg) (h : LineRun μ e lw wk l rest en) (n : Nat) (st : SetSt W)
    (hd : WTrivial wk ∨ storedC cfg en ≠ []) :
    setEntryN μ lw cfg wk (n+1) st (rd e (firstIntL l ++ nl :: rest)) =
      if storedC cfg en = [] then setEntryN μ lw cfg wk n st (rd e (firstIntL rest))
      else .ok (setLine cfg wk.wgt st en, rd e (firstIntL rest)) := by
  obtain ⟨u1, u2, u3, u3', h1, h2, h3, h4, h5, h6, ⟨u3'', h7, h8, h9⟩, h10, h11, h12, h13⟩ := h.ex
  obtain ⟨x, y, w⟩ := en
  obtain ⟨sym, ut, sl⟩ := cfg
  simp only [setEntryN, setWgt, h1, ok_bind, h2, h3, h4, h5, h6, h13]
  clear h h1 h2 h3 h4 h5 h6 h7 h8 h9 h10 h11 h12 h13
  simp only [storedC, Spec.stored, setLine] at hd ⊢
  have hw : WTrivial wk → wk.wgt = false := fun t => t.wgt
  cases hwg : wk.wgt <;>
  cases sym <;> cases ut <;> cases sl <;> rcases Nat.lt_trichotomy x y with hxy | hxy | hxy <;>
    simp_all [entryActs, Nat.le_of_lt, Nat.min_eq_left, Nat.min_eq_right, Nat.max_eq_left, Nat.max_eq_right,
      Nat.not_lt_of_lt, Nat.ne_of_lt, Nat.ne_of_gt, Nat.not_le_of_lt, Nat.lt_irrefl]

end entry

end Pigo
