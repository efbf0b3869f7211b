import Verif.Lemmas.GraphBlank3
import Verif.Props.GraphFile

/-!
# `.graph` files with comments in the body (C72)

Comments without digits, set apart by a blank, one at a time, have no effect: as `triangle-messy.graph` of the project's
tests.  `C72_…_violated` show what happens otherwise.
-/

namespace Pigo

variable {W : Type}

theorem lines_split {s : List Byte} {pre body : List (List Byte)} {hdr tail : List Byte} (hl : Spec.lines s = pre ++ hdr :: (body ++ [tail])) :
    s = text pre ++ (hdr ++ nl :: (text body ++ tail)) := by
  have h1 := text_lines s
  have h2 : (Spec.lines s).dropLast = pre ++ hdr :: body := by
    rw [hl, show pre ++ hdr :: (body ++ [tail]) = (pre ++ hdr :: body) ++ [tail] from by simp, List.dropLast_concat]
  have h3 : (Spec.lines s).getLast (Spec.lines_ne_nil _) = tail := by
    simp only [hl]
    rw [List.getLast_append_of_ne_nil (by simp) (by simp), List.getLast_cons (by simp), List.getLast_append_of_ne_nil (by simp) (by simp)]
    rfl
  rw [h2, h3, text_append, text_cons] at h1
  simpa using h1

/-- **C72** (what holds) Writing blanks for the comments of the body does not change what loading does, for any number of threads, if
the comments are `Spec.QuietComments`.  `pre` are lines before the header `hdr`.  Missing: all other comments. -/
theorem C72_quiet_comments_ignored_partial (μ μ' : Mapping) (hpad : 0 < μ.pad) (hpad' : 0 < μ'.pad) (lw ow T n m : Nat)
    (pre body : List (List Byte)) (hdr tail : List Byte) (t : List Nat)
    (hl : Spec.lines μ.bytes = pre ++ hdr :: (body ++ [tail]))
    (hl' : Spec.lines μ'.bytes = pre ++ hdr :: (body.map Spec.blankComment ++ [tail]))
    (hpre : ∀ l ∈ pre, Spec.ints l = []) (hhdr : Spec.ints hdr = n :: m :: t) (hq : Spec.QuietComments body tail) (out : M (Csr W)) :
    LoadGraph μ lw ow T out ↔ LoadGraph μ' lw ow T out := by
  have hno := lines_noNl μ.bytes
  rw [hl] at hno
  have hnp : NoNl pre := fun l h => hno l (by simp [h])
  have hns : nl ∉ hdr := hno hdr (by simp)
  have hnb : NoNl body := fun l h => hno l (by simp [h])
  have htext := lines_split hl
  have htext' := lines_split hl'
  have hb := blankL_text tail hq.last body hnb
  have hqt := quietL_text hnb hq
  rw [← hb] at htext'
  have hlen : μ'.bytes.length = μ.bytes.length := by
    rw [htext', htext]; simp [blankL_length]
  obtain ⟨h1, v⟩ := graphHeader_text hpad htext hnp hns hpre hhdr lw ow
  obtain ⟨h1', v'⟩ := graphHeader_text hpad' htext' hnp hns hpre hhdr lw ow
  obtain ⟨f1, f2⟩ := firstIntL_blank hqt
  rw [f1, hlen] at v' h1'
  rw [rd_blank] at h1'
  have ht : SameTail μ μ' μ.bytes.length :=
    ⟨0, Mapping.get_pad _ (Nat.le_refl _) (by omega), Mapping.get_pad _ (by omega) (by omega), rfl⟩
  have hf : fileReader μ' = fileReader μ := by unfold fileReader; rw [hlen]
  have hp : graphPlan μ lw ow T (fileReader μ) = graphPlan μ' lw ow T (fileReader μ') := by
    exact graphPlan_blank ht v v' f2 h1 h1'
  unfold LoadGraph readGraph
  rw [hp]

/-- The file with blanks for comments. -/
def blankedFile (pre body : List (List Byte)) (hdr tail : List Byte) : Mapping :=
  ⟨text pre ++ (hdr ++ nl :: (text (body.map Spec.blankComment) ++ tail)), 1⟩

theorem blankedFile_lines {μ : Mapping} {pre body : List (List Byte)} {hdr tail : List Byte}
    (hl : Spec.lines μ.bytes = pre ++ hdr :: (body ++ [tail])) :
    Spec.lines (blankedFile pre body hdr tail).bytes = pre ++ hdr :: (body.map Spec.blankComment ++ [tail]) := by
  have hno := lines_noNl μ.bytes
  rw [hl] at hno
  have h := lines_text (ls := pre ++ hdr :: body.map Spec.blankComment) (tail := tail) (by
    intro l hm
    rcases List.mem_append.mp hm with hm | hm
    · exact hno l (by simp [hm])
    · rcases List.mem_cons.mp hm with hm | hm
      · rw [hm]; exact hno hdr (by simp)
      · obtain ⟨x, hx, rfl⟩ := List.mem_map.mp hm
        exact blankComment_noNl (hno x (by simp [hx]))) (hno tail (by simp))
  have e : (blankedFile pre body hdr tail).bytes = text (pre ++ hdr :: body.map Spec.blankComment) ++ tail := by
    unfold blankedFile
    rw [text_append, text_cons]; simp
  rw [e, h]; simp

/-- A `.graph` file with quiet comments whose body has the adjacency lists `rows`; the numbers fit their types. -/
structure GraphQuiet (file : List Byte) (lw ow n m : Nat) (rows : List (List Nat)) (body : List (List Byte)) (tail : List Byte) : Prop where
  file : Spec.GraphText file n m body tail
  quiet : Spec.QuietComments body tail
  adj : body.map Spec.ints = rows
  last : Spec.ints tail = []
  labels : ∀ u ∈ rows.flatten, u < 2 ^ lw
  fitRows : rows.length + 2 < 2 ^ lw
  fitN : n < 2 ^ lw
  fitM : 2 * m < 2 ^ ow
  fitInts : rows.flatten.length < 2 ^ ow

theorem graphQuiet_blanked {μ : Mapping} (hpad : 0 < μ.pad) {lw ow n m : Nat} {rows : List (List Nat)} {body : List (List Byte)}
    {tail : List Byte} (h : GraphQuiet μ.bytes lw ow n m rows body tail) : ∃ μ' : Mapping, 0 < μ'.pad ∧
      (∀ (T : Nat) (out : M (Csr W)), LoadGraph μ lw ow T out ↔ LoadGraph μ' lw ow T out) ∧
      GraphOk μ'.bytes lw ow n m rows (body.map Spec.blankComment) tail := by
  obtain ⟨pre, hdr, hl, hpre, t, hhdr⟩ := h.file
  have hl' := blankedFile_lines hl
  refine ⟨blankedFile pre body hdr tail, Nat.one_pos,
    fun T out => C72_quiet_comments_ignored_partial μ _ hpad Nat.one_pos lw ow T n m pre body hdr tail t hl hl' hpre hhdr h.quiet out, ?_⟩
  refine ⟨⟨⟨pre, hdr, hl', hpre, t, hhdr⟩, ?_⟩, ?_, h.last, h.labels, h.fitRows, h.fitN, h.fitM, h.fitInts⟩
  · intro l hm
    rcases List.mem_append.mp hm with hm | hm
    · obtain ⟨x, _, rfl⟩ := List.mem_map.mp hm
      exact blankComment_nocom x
    · rw [List.mem_singleton] at hm
      rw [hm]; exact plain_nocom h.quiet.last
  · rw [← h.adj]
    unfold Spec.adjacency
    rw [List.map_map]
    apply List.map_congr_left
    intro l _
    show (Spec.digitRuns (Spec.blankComment l)).map Spec.decimal = Spec.ints l
    rw [digitRuns_blankComment]; rfl

/-- A vertex `0` is written somewhere outside of comments. -/
def QuietZero (body : List (List Byte)) : Prop := ∃ l ∈ body, [48] ∈ Spec.digitRuns (Spec.stripComment l)

theorem quietZero_iff {μ : Mapping} {lw ow n m : Nat} {rows : List (List Nat)} {body : List (List Byte)} {tail : List Byte}
    (h : GraphQuiet μ.bytes lw ow n m rows body tail) : Spec.ZeroBased (body.map Spec.blankComment) tail ↔ QuietZero body := by
  have ht : Spec.digitRuns tail = [] := by
    have h1 := h.last
    unfold Spec.ints at h1
    rwa [graph_noCom_strip (plain_nocom h.quiet.last), List.map_eq_nil_iff] at h1
  constructor
  · rintro ⟨l, hl, hz⟩
    rcases List.mem_append.mp hl with hl | hl
    · obtain ⟨x, hx, rfl⟩ := List.mem_map.mp hl
      rw [digitRuns_blankComment] at hz
      exact ⟨x, hx, hz⟩
    · rw [List.mem_singleton] at hl
      rw [hl, ht] at hz; cases hz
  · rintro ⟨l, hl, hz⟩
    exact ⟨Spec.blankComment l, List.mem_append_left _ (List.mem_map_of_mem hl), by rwa [digitRuns_blankComment]⟩

/-- **C72** (what holds) A 0-based file with quiet comments and a non-empty first row, with at least as many lines as declared
vertices: row `i` is the integers of line `i` outside of its comment (a line with only a comment is an empty row). -/
theorem C72_quiet_zero_based_partial (μ : Mapping) (hpad : 0 < μ.pad) (lw ow T n m : Nat) (hT : 0 < T) (rows : List (List Nat))
    (body : List (List Byte)) (tail : List Byte) (h : GraphQuiet μ.bytes lw ow n m rows body tail) (hn : n ≤ rows.length)
    (he : rows.flatten.length = m ∨ rows.flatten.length = 2 * m) (hz : QuietZero body)
    (hfirst : ∀ r, rows.head? = some r → r ≠ []) (out : M (Csr W)) (hrun : LoadGraph μ lw ow T out) :
    ∃ c, out = .ok c ∧ (∀ i r, rows[i]? = some r → Spec.row c i = r) ∧ c.n = n ∧ c.nrows = rows.length ∧
      c.m = rows.flatten.length := by
  obtain ⟨μ', h1, h2, h3⟩ := graphQuiet_blanked (W := W) hpad h
  exact C58_extra_lines μ' h1 lw ow T n m hT rows _ tail h3 hn he ((quietZero_iff h).mpr hz) hfirst out ((h2 T out).mp hrun)

/-- **C72** (what holds) The same for a 1-based file with a line per declared vertex: row `v` is the integers of line `v`. -/
theorem C72_quiet_one_based_partial (μ : Mapping) (hpad : 0 < μ.pad) (lw ow T n m : Nat) (hT : 0 < T) (rows : List (List Nat))
    (body : List (List Byte)) (tail : List Byte) (h : GraphQuiet μ.bytes lw ow n m rows body tail) (hh : HeaderOk n m rows)
    (hz : ¬ QuietZero body) (hfirst : ∀ r, rows.head? = some r → r ≠ []) (out : M (Csr W)) (hrun : LoadGraph μ lw ow T out) :
    ∃ c, out = .ok c ∧ Spec.row c 0 = [] ∧ (∀ i r, rows[i]? = some r → Spec.row c (i + 1) = r) ∧ c.n = n ∧ c.nrows = n + 1 ∧
      c.m = rows.flatten.length := by
  obtain ⟨μ', h1, h2, h3⟩ := graphQuiet_blanked (W := W) hpad h
  obtain ⟨c, a1, a2, a3, a4, a5, a6, _⟩ := C59_one_based_partial μ' h1 lw ow T n m hT rows _ tail h3 hh
    (fun hx => hz ((quietZero_iff h).mp hx)) hfirst out ((h2 T out).mp hrun)
  exact ⟨c, a1, a2, a3, a4, a5, a6⟩

/-- The outcome of loading such a file. -/
theorem graphQuiet_result {μ : Mapping} (hpad : 0 < μ.pad) {lw ow n m : Nat} {rows : List (List Nat)} {body : List (List Byte)}
    {tail : List Byte} (h : GraphQuiet μ.bytes lw ow n m rows body tail) {T : Nat} (hT : 0 < T) {base : Nat}
    (hb : QuietZero body ∧ base = 0 ∨ ¬ QuietZero body ∧ base = 1) {out : M (Csr W)} (hrun : LoadGraph μ lw ow T out) :
    out = graphResult lw ow n m base (rows.dropWhile List.isEmpty) := by
  obtain ⟨μ', h1, h2, h3⟩ := graphQuiet_blanked (W := W) hpad h
  have h4 := (graphOk_result h1 h3 hT out).mp ((h2 T out).mp hrun)
  have h5 : fileBase (body.map Spec.blankComment) tail = base := by
    have key : [48] ∈ ((body.map Spec.blankComment).map Spec.digitRuns).flatten ++ Spec.digitRuns tail ↔ QuietZero body := by
      rw [← quietZero_iff h]
      unfold Spec.ZeroBased
      simp only [List.mem_append, List.mem_flatten, List.mem_map, exists_exists_and_eq_and]
      constructor
      · rintro (⟨a, ha, hz⟩ | hz)
        · exact ⟨_, .inl ⟨a, ha, rfl⟩, hz⟩
        · exact ⟨_, .inr (List.mem_singleton_self _), hz⟩
      · rintro ⟨l, hl, hz⟩
        rcases hl with hl | hl
        · obtain ⟨a, ha, rfl⟩ := hl
          exact .inl ⟨a, ha, hz⟩
        · rw [List.mem_singleton] at hl; exact .inr (hl ▸ hz)
    unfold fileBase
    rcases hb with ⟨hb, rfl⟩ | ⟨hb, rfl⟩
    · exact if_pos (key.mpr hb)
    · exact if_neg (fun hx => hb (key.mp hx))
  rwa [h5] at h4

/-- **C72** (what holds) A file with quiet comments is rejected exactly if the numbers of its body are neither `m` nor `2·m`, or it has
fewer lines than declared vertices (lines before the first row do not count; a 1-based file has a row `0` of its own). -/
theorem C72_quiet_rejected_partial (μ : Mapping) (hpad : 0 < μ.pad) (lw ow T n m : Nat) (hT : 0 < T) (rows : List (List Nat))
    (body : List (List Byte)) (tail : List Byte) (h : GraphQuiet μ.bytes lw ow n m rows body tail) {base : Nat}
    (hb : QuietZero body ∧ base = 0 ∨ ¬ QuietZero body ∧ base = 1)
    (out : M (Csr W)) (hrun : LoadGraph μ lw ow T out) :
    (∃ e, out = .error e) ↔ (rows.flatten.length ≠ m ∧ rows.flatten.length ≠ 2 * m) ∨
      base + (rows.dropWhile List.isEmpty).length < n := by
  rw [graphQuiet_result hpad h hT hb hrun]
  unfold graphResult
  rw [twice_lt h.fitM, flatten_dropWhile]
  constructor
  · rintro ⟨e, he⟩
    split at he
    · next hc => exact .inl ⟨hc.2, hc.1⟩
    · split at he
      · next hc => exact .inr hc
      · cases he
  · intro hx
    by_cases hc : rows.flatten.length ≠ 2 * m ∧ rows.flatten.length ≠ m
    · rw [if_pos hc]; exact ⟨_, rfl⟩
    · rw [if_neg hc]
      rcases hx with hx | hx
      · exact absurd ⟨hx.2, hx.1⟩ hc
      · rw [if_pos hx]; exact ⟨_, rfl⟩

/-! ### `triangle-messy.graph` of the project's tests -/

def exTriMessy : Mapping := ⟨str "% comments 3 4 5\n# 11 22   \n        3 6 % the header <-\n1       2 % more\n0 2                 \n        0           1           \n                \n\n extra lines at the end are OK?\n f d sa\n", 5⟩
def exTriMessyBody : List (List Byte) := [str "1       2 % more", str "0 2                 ", str "        0           1           ",
  str "                ", [], str " extra lines at the end are OK?", str " f d sa"]
def exTriMessyRows : List (List Nat) := [[1, 2], [0, 2], [0, 1], [], [], [], []]

theorem exTriMessy_quiet : GraphQuiet exTriMessy.bytes 32 64 3 6 exTriMessyRows exTriMessyBody [] where
  file := ⟨[str "% comments 3 4 5", str "# 11 22   "], str "        3 6 % the header <-", by decide +kernel, by decide +kernel, [], by decide +kernel⟩
  quiet := ⟨by decide +kernel, by decide +kernel, by
    have key : ∀ i, i < 7 → ∀ l ∈ (exTriMessyBody[i]?).toList, ∀ l' ∈ (exTriMessyBody[i + 1]?).toList, Spec.comment l ≠ [] →
        ∀ b ∈ l'.head?.toList, Spec.isComment b = false := by decide +kernel
    intro i l l' h1 h2 hc b hb
    have hi : i < 7 := (List.getElem?_eq_some_iff.mp h1).1
    exact key i hi l (by rw [h1]; simp) l' (by rw [h2]; simp) hc b (by rw [hb]; simp), rfl⟩
  adj := by decide +kernel
  last := by decide +kernel
  labels := by decide
  fitRows := by decide
  fitN := by decide
  fitM := by decide
  fitInts := by decide

example (T : Nat) (hT : 0 < T) : ∃ (out : M (Csr Unit)) (c : Csr Unit), LoadGraph exTriMessy 32 64 T out ∧ out = .ok c ∧
    Spec.row c 0 = [1, 2] ∧ Spec.row c 1 = [0, 2] ∧ Spec.row c 2 = [0, 1] ∧ c.n = 3 ∧ c.m = 6 := by
  obtain ⟨out, h⟩ := loadGraph_exists (W := Unit) exTriMessy 32 64 T
  obtain ⟨c, h1, h2, h3, _, h5⟩ := C72_quiet_zero_based_partial exTriMessy (by decide) 32 64 T 3 6 hT exTriMessyRows exTriMessyBody []
    exTriMessy_quiet (by decide) (by decide) ⟨str "0 2                 ", by decide +kernel, by decide +kernel⟩ (by decide) out h
  exact ⟨out, c, h, h1, h2 0 _ rfl, h2 1 _ rfl, h2 2 _ rfl, h3, h5⟩

end Pigo
