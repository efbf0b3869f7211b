import Verif.Lemmas.GraphRows

/-!
# Properties of loading `.graph` files (C58–C62, C71)

About `LoadGraph`: all executions of `CSR(fn, GRAPH)` with `T` threads.  The row numbers of the loaded CSR are the indices of
its offsets, `Spec.row c v` is what `neighbor_begin(v) … neighbor_end(v)` walks over.
-/

namespace Pigo

variable {W : Type}

/-- A `.graph` file whose body has the adjacency lists `rows` and nothing but blanks after the last newline; the numbers fit
their types. -/
structure GraphOk (file : List Byte) (lw ow n m : Nat) (rows : List (List Nat)) (body : List (List Byte)) (tail : List Byte) : Prop where
  file : Spec.GraphFile file n m body tail
  adj : Spec.adjacency body = rows
  last : Spec.ints tail = []
  labels : ∀ u ∈ rows.flatten, u < 2 ^ lw
  fitRows : rows.length + 2 < 2 ^ lw
  fitN : n < 2 ^ lw
  fitM : 2 * m < 2 ^ ow
  fitInts : rows.flatten.length < 2 ^ ow

/-- The header agrees with the body: a row per vertex, and every edge is written once or twice. -/
structure HeaderOk (n m : Nat) (rows : List (List Nat)) : Prop where
  count : rows.length = n
  edges : rows.flatten.length = m ∨ rows.flatten.length = 2 * m

theorem graph_noCom_strip {l : List Byte} (h : ∀ b ∈ l, Spec.isComment b = false) : Spec.stripComment l = l := by
  unfold Spec.stripComment
  induction l with
  | nil => rfl
  | cons b l ih =>
    rw [List.takeWhile_cons, if_pos (by simp [h b (by simp)]), ih (fun x hx => h x (List.mem_cons_of_mem _ hx))]

theorem GraphOk.tail_runs {file : List Byte} {lw ow n m : Nat} {rows : List (List Nat)} {body : List (List Byte)} {tail : List Byte}
    (h : GraphOk file lw ow n m rows body tail) : Spec.digitRuns tail = [] := by
  have := h.last
  unfold Spec.ints at this
  rwa [graph_noCom_strip (fun b hb => h.file.nocom tail (by simp) b hb), List.map_eq_nil_iff] at this

theorem fileBase_le (body : List (List Byte)) (tail : List Byte) : fileBase body tail ≤ 1 := by
  unfold fileBase; split <;> omega

theorem dropWhile_len_le {α : Type} (P : α → Bool) (l : List α) : (l.dropWhile P).length ≤ l.length :=
  (List.dropWhile_suffix P).length_le

/-- All executions on a file with such a body. -/
theorem graphOk_result {μ : Mapping} (hpad : 0 < μ.pad) {lw ow n m : Nat} {rows : List (List Nat)} {body : List (List Byte)}
    {tail : List Byte} (h : GraphOk μ.bytes lw ow n m rows body tail) {T : Nat} (hT : 0 < T) (out : M (Csr W)) :
    LoadGraph μ lw ow T out ↔ out = graphResult lw ow n m (fileBase body tail) (rows.dropWhile List.isEmpty) := by
  have h1 : keptRows body = rows.dropWhile List.isEmpty := by unfold keptRows; rw [h.adj]
  have h2 := fileBase_le body tail
  have h3 := dropWhile_len_le List.isEmpty rows
  have h4 := h.fitRows
  have h5 := h.fitM
  rw [loadGraph_result hpad h.file h.tail_runs hT (by rw [h1]; omega) (by rw [h.adj]; exact h.fitInts)
    (by rw [h.adj]; exact h.labels), h1, Nat.mod_eq_of_lt h.fitN, Nat.mod_eq_of_lt (by omega : m < 2 ^ ow)]

theorem headNonempty {rows : List (List Nat)} (h : ∀ r, rows.head? = some r → r ≠ []) : rows.dropWhile List.isEmpty = rows := by
  cases rows with
  | nil => rfl
  | cons r rows =>
    have := h r rfl
    rw [List.dropWhile_cons, if_neg (by simpa using this)]

theorem graphResult_ok {lw ow n m base : Nat} {rows : List (List Nat)} (h2 : 2 * m < 2 ^ ow)
    (he : rows.flatten.length = m ∨ rows.flatten.length = 2 * m) (hn : n ≤ base + rows.length) :
    (graphResult lw ow n m base rows : M (Csr W)) = .ok (graphCsr lw n base rows) := by
  unfold graphResult
  rw [twice_lt h2, if_neg (by omega), if_neg (by omega)]

/-! ### C58 -/

/-- **C58** A 0-based file with a non-empty first row loads exactly: row `i` is the integers of line `i` of the body, in
order; `n()` and `nrows()` are the declared number of vertices, `m()` the number of integers, `ncols()` one more than the
largest label (in the label type).  For any number of threads and any schedule. -/
theorem C58_zero_based (μ : Mapping) (hpad : 0 < μ.pad) (lw ow T n m : Nat) (hT : 0 < T) (rows : List (List Nat))
    (body : List (List Byte)) (tail : List Byte) (h : GraphOk μ.bytes lw ow n m rows body tail) (hh : HeaderOk n m rows)
    (hz : Spec.ZeroBased body tail) (hfirst : ∀ r, rows.head? = some r → r ≠ []) (out : M (Csr W))
    (hrun : LoadGraph μ lw ow T out) :
    ∃ c, out = .ok c ∧ Spec.ValidCsr c false ∧ (∀ i r, rows[i]? = some r → Spec.row c i = r) ∧ c.n = n ∧ c.nrows = n ∧
      c.m = rows.flatten.length ∧ c.endpoints = rows.flatten ∧ c.ncols = (Spec.maxOf rows.flatten + 1) % 2 ^ lw := by
  rw [graphOk_result hpad h hT, headNonempty hfirst, fileBase_zero.mpr hz,
    graphResult_ok h.fitM hh.edges (by rw [hh.count]; omega)] at hrun
  refine ⟨_, hrun, graphCsr_valid _ _ _ _ (by rw [hh.count]; omega), ?_, rfl, ?_, rfl, rfl, rfl⟩
  · intro i r hr
    have := graphCsr_row (W := W) lw n 0 rows hr
    rwa [Nat.zero_add] at this
  · show 0 + rows.length = n
    rw [hh.count]; omega

/-- **C58** With more lines than declared vertices (e.g. blank lines at the end) the first `n` rows are the same;
`nrows()` counts all lines. -/
theorem C58_extra_lines (μ : Mapping) (hpad : 0 < μ.pad) (lw ow T n m : Nat) (hT : 0 < T) (rows : List (List Nat))
    (body : List (List Byte)) (tail : List Byte) (h : GraphOk μ.bytes lw ow n m rows body tail) (hn : n ≤ rows.length)
    (he : rows.flatten.length = m ∨ rows.flatten.length = 2 * m)
    (hz : Spec.ZeroBased body tail) (hfirst : ∀ r, rows.head? = some r → r ≠ []) (out : M (Csr W))
    (hrun : LoadGraph μ lw ow T out) :
    ∃ c, out = .ok c ∧ (∀ i r, rows[i]? = some r → Spec.row c i = r) ∧ c.n = n ∧ c.nrows = rows.length ∧
      c.m = rows.flatten.length := by
  rw [graphOk_result hpad h hT, headNonempty hfirst, fileBase_zero.mpr hz, graphResult_ok h.fitM he (by omega)] at hrun
  refine ⟨_, hrun, ?_, rfl, ?_, rfl⟩
  · intro i r hr
    have := graphCsr_row (W := W) lw n 0 rows hr
    rwa [Nat.zero_add] at this
  · show 0 + rows.length = _; omega

/-- A 0-based file with an empty row inside, blanks and a comment before the header. -/
def exGraph0 : Mapping := ⟨str "% a graph 7 7\n4 3\n1  2\n0 3\n\n 0,1\n", 5⟩
def exBody0 : List (List Byte) := [str "1  2", str "0 3", [], str " 0,1"]
def exRows0 : List (List Nat) := [[1, 2], [0, 3], [], [0, 1]]

theorem exGraph0_ok : GraphOk exGraph0.bytes 32 64 4 3 exRows0 exBody0 [] where
  file := ⟨⟨[str "% a graph 7 7"], str "4 3", by decide, by decide, [], by decide⟩, by decide⟩
  adj := by decide
  last := by decide
  labels := by decide
  fitRows := by decide
  fitN := by decide
  fitM := by decide
  fitInts := by decide

theorem exGraph0_zero : Spec.ZeroBased exBody0 [] := ⟨str "0 3", by decide, by decide⟩

example : ∃ (out : M (Csr Unit)) (c : Csr Unit), LoadGraph exGraph0 32 64 3 out ∧ out = .ok c ∧ Spec.row c 0 = [1, 2] ∧
    Spec.row c 2 = [] ∧ Spec.row c 3 = [0, 1] ∧ c.n = 4 ∧ c.m = 6 := by
  obtain ⟨out, h⟩ := loadGraph_exists (W := Unit) exGraph0 32 64 3
  obtain ⟨c, h1, _, h2, h3, _, h4, _⟩ := C58_zero_based exGraph0 (by decide) 32 64 3 4 3 (by decide) exRows0 exBody0 []
    exGraph0_ok ⟨by decide, by decide⟩ exGraph0_zero (by decide) out h
  exact ⟨out, c, h, h1, h2 0 _ rfl, h2 2 _ rfl, h2 3 _ rfl, h3, h4⟩

/-! ### C59 -/

/-- The property of C59: the adjacency of every vertex of a 1-based file is a row of the CSR at the vertex' own number and
below `n()`. -/
def ExposesAll (c : Csr W) (rows : List (List Nat)) : Prop :=
  ∀ v, 1 ≤ v → v ≤ rows.length → v < c.n ∧ Spec.row c v = rows.getD (v - 1) []

/-- The same with the vertices renumbered from 0. -/
def ExposesShifted (c : Csr W) (rows : List (List Nat)) : Prop :=
  ∀ v, 1 ≤ v → v ≤ rows.length → v - 1 < c.n ∧ Spec.row c (v - 1) = rows.getD (v - 1) []

/-- **C59 is violated** by every 1-based file with at least one vertex (and a non-empty first row): `n()` is the declared
number of vertices, row 0 is empty, vertex `v` is row `v`, so the row of the last vertex is at `n()`. -/
theorem C59_last_row_violated (μ : Mapping) (hpad : 0 < μ.pad) (lw ow T n m : Nat) (hT : 0 < T) (rows : List (List Nat))
    (body : List (List Byte)) (tail : List Byte) (h : GraphOk μ.bytes lw ow n m rows body tail) (hh : HeaderOk n m rows)
    (hn : 0 < n) (hz : ¬ Spec.ZeroBased body tail) (hfirst : ∀ r, rows.head? = some r → r ≠ []) (out : M (Csr W))
    (hrun : LoadGraph μ lw ow T out) :
    ∃ c, out = .ok c ∧ ¬ ExposesAll c rows ∧ ¬ ExposesShifted c rows ∧ c.n = n ∧ c.nrows = n + 1 := by
  rw [graphOk_result hpad h hT, headNonempty hfirst, fileBase_one.mpr hz,
    graphResult_ok h.fitM hh.edges (by rw [hh.count]; omega)] at hrun
  refine ⟨_, hrun, ?_, ?_, rfl, ?_⟩
  · intro hx
    have h1 := (hx n hn (by rw [hh.count]; exact Nat.le_refl _)).1
    exact absurd h1 (Nat.lt_irrefl n)
  · intro hx
    have h1 := (hx 1 (by omega) (by rw [hh.count]; omega)).2
    rw [show 1 - 1 = 0 from rfl, graphCsr_row_zero] at h1
    cases hr : rows with
    | nil => rw [hr] at hh; have := hh.count; simp at this; omega
    | cons r rows' =>
      rw [hr] at h1 hfirst
      exact hfirst r rfl (by simpa using h1.symm)
  · show 1 + rows.length = n + 1
    rw [hh.count]; omega

/-- **C59** (what holds) A 1-based file with a non-empty first row: row `v` is the integers of line `v` for every vertex
`1 ≤ v ≤ n` – the offsets have a row more than `n()`.  Missing: `n()` does not count the last vertex. -/
theorem C59_one_based_partial (μ : Mapping) (hpad : 0 < μ.pad) (lw ow T n m : Nat) (hT : 0 < T) (rows : List (List Nat))
    (body : List (List Byte)) (tail : List Byte) (h : GraphOk μ.bytes lw ow n m rows body tail) (hh : HeaderOk n m rows)
    (hz : ¬ Spec.ZeroBased body tail) (hfirst : ∀ r, rows.head? = some r → r ≠ []) (out : M (Csr W))
    (hrun : LoadGraph μ lw ow T out) :
    ∃ c, out = .ok c ∧ Spec.row c 0 = [] ∧ (∀ i r, rows[i]? = some r → Spec.row c (i + 1) = r) ∧ c.n = n ∧ c.nrows = n + 1 ∧
      c.m = rows.flatten.length ∧ c.offsets.length = n + 2 ∧ c.endpoints = rows.flatten ∧ Spec.ValidCsr { c with n := n + 1 } false := by
  rw [graphOk_result hpad h hT, headNonempty hfirst, fileBase_one.mpr hz,
    graphResult_ok h.fitM hh.edges (by rw [hh.count]; omega)] at hrun
  have hv := graphCsr_valid (W := W) lw (n + 1) 1 rows (by rw [hh.count]; omega)
  refine ⟨_, hrun, graphCsr_row_zero _ _ _, ?_, rfl, ?_, rfl, hv.offsets, rfl, hv⟩
  · intro i r hr
    have := graphCsr_row (W := W) lw n 1 rows hr
    rwa [Nat.add_comm] at this
  · show 1 + rows.length = n + 1
    rw [hh.count]; omega

/-- A 1-based file: a path 1 – 2 – 3. -/
def exGraph1 : Mapping := ⟨str "3 2\n2\n1 3\n2\n", 5⟩
def exBody1 : List (List Byte) := [str "2", str "1 3", str "2"]
def exRows1 : List (List Nat) := [[2], [1, 3], [2]]

theorem exGraph1_ok : GraphOk exGraph1.bytes 32 64 3 2 exRows1 exBody1 [] where
  file := ⟨⟨[], str "3 2", by decide, by decide, [], by decide⟩, by decide⟩
  adj := by decide
  last := by decide
  labels := by decide
  fitRows := by decide
  fitN := by decide
  fitM := by decide
  fitInts := by decide

theorem exGraph1_one : ¬ Spec.ZeroBased exBody1 [] := by
  rintro ⟨l, hl, h⟩
  have : ∀ l ∈ exBody1 ++ [[]], [48] ∉ Spec.digitRuns l := by decide
  exact this l hl h

example : ∃ (out : M (Csr Unit)) (c : Csr Unit), LoadGraph exGraph1 32 64 2 out ∧ out = .ok c ∧ ¬ ExposesAll c exRows1 ∧ c.n = 3 := by
  obtain ⟨out, h⟩ := loadGraph_exists (W := Unit) exGraph1 32 64 2
  obtain ⟨c, h1, h2, _, h3, _⟩ := C59_last_row_violated exGraph1 (by decide) 32 64 2 3 2 (by decide) exRows1 exBody1 []
    exGraph1_ok ⟨by decide, by decide⟩ (by decide) exGraph1_one (by decide) out h
  exact ⟨out, c, h, h1, h2, h3⟩

/-! ### C60 -/

/-- **C60 is violated** by every 0-based file whose first vertex has no neighbours: the line is skipped with the header, a row
is missing and every execution throws. -/
theorem C60_empty_first_row_throws_violated (μ : Mapping) (hpad : 0 < μ.pad) (lw ow T n m : Nat) (hT : 0 < T) (rows : List (List Nat))
    (body : List (List Byte)) (tail : List Byte) (h : GraphOk μ.bytes lw ow n m ([] :: rows) body tail) (hh : HeaderOk n m ([] :: rows))
    (hz : Spec.ZeroBased body tail) (out : M (Csr W)) (hrun : LoadGraph μ lw ow T out) : out = .error .error := by
  rw [graphOk_result hpad h hT, fileBase_zero.mpr hz] at hrun
  rw [hrun, List.dropWhile_cons, if_pos (by rfl), graphResult]
  have h1 := dropWhile_len_le List.isEmpty rows
  have h2 := hh.count
  simp only [List.length_cons] at h2
  split
  · rfl
  · rw [if_pos (by omega)]

/-- **C60 is violated** by 1-based files: with an empty first line the file loads without error, but every vertex `v` gets
the neighbours of vertex `v + 1`. -/
theorem C60_empty_first_row_shifts_violated (μ : Mapping) (hpad : 0 < μ.pad) (lw ow T n m : Nat) (hT : 0 < T) (r : List Nat)
    (rows : List (List Nat)) (hr : r ≠ []) (body : List (List Byte)) (tail : List Byte)
    (h : GraphOk μ.bytes lw ow n m ([] :: r :: rows) body tail) (hh : HeaderOk n m ([] :: r :: rows))
    (hz : ¬ Spec.ZeroBased body tail) (out : M (Csr W)) (hrun : LoadGraph μ lw ow T out) :
    ∃ c, out = .ok c ∧ Spec.row c 1 = r ∧ ∀ v q, ([] :: r :: rows)[v]? = some q → 1 ≤ v → Spec.row c v = q := by
  have hd : ([] :: r :: rows).dropWhile List.isEmpty = r :: rows := by
    rw [List.dropWhile_cons, if_pos (by rfl), List.dropWhile_cons, if_neg (by simpa using hr)]
  have h2 := hh.count
  simp only [List.length_cons] at h2
  rw [graphOk_result hpad h hT, hd, fileBase_one.mpr hz, graphResult_ok h.fitM (by simpa using hh.edges)
    (by simp only [List.length_cons]; omega)] at hrun
  refine ⟨_, hrun, ?_, ?_⟩
  · exact graphCsr_row (W := W) lw n 1 (r :: rows) (i := 0) rfl
  · intro v q hq hv
    obtain ⟨i, rfl⟩ : ∃ i, v = i + 1 := ⟨v - 1, by omega⟩
    have := graphCsr_row (W := W) lw n 1 (r :: rows) (i := i) (r := q) (by simpa using hq)
    rwa [Nat.add_comm] at this

/-- **C60** (what holds) Empty rows after the first non-empty one are kept: row `i` is empty for every empty line `i` of a
0-based file.  Missing: leading empty rows. -/
theorem C60_inner_empty_rows_partial (μ : Mapping) (hpad : 0 < μ.pad) (lw ow T n m : Nat) (hT : 0 < T) (rows : List (List Nat))
    (body : List (List Byte)) (tail : List Byte) (h : GraphOk μ.bytes lw ow n m rows body tail) (hh : HeaderOk n m rows)
    (hz : Spec.ZeroBased body tail) (hfirst : ∀ r, rows.head? = some r → r ≠ []) (out : M (Csr W))
    (hrun : LoadGraph μ lw ow T out) : ∃ c, out = .ok c ∧ ∀ i, rows[i]? = some [] → i < c.n ∧ Spec.row c i = [] := by
  obtain ⟨c, h1, _, h2, h3, _⟩ := C58_zero_based μ hpad lw ow T n m hT rows body tail h hh hz hfirst out hrun
  refine ⟨c, h1, fun i hi => ⟨?_, h2 i _ hi⟩⟩
  rw [h3, ← hh.count]
  exact (List.getElem?_eq_some_iff.mp hi).1

/-- A 0-based file whose first vertex has no neighbours. -/
def exGraphE0 : Mapping := ⟨str "3 2\n\n0 2\n1\n", 5⟩
/-- A 1-based file whose first vertex has no neighbours. -/
def exGraphE1 : Mapping := ⟨str "3 1\n\n3\n2\n", 5⟩

theorem exGraphE0_ok : GraphOk exGraphE0.bytes 32 64 3 2 [[], [0, 2], [1]] [[], str "0 2", str "1"] [] where
  file := ⟨⟨[], str "3 2", by decide, by decide, [], by decide⟩, by decide⟩
  adj := by decide
  last := by decide
  labels := by decide
  fitRows := by decide
  fitN := by decide
  fitM := by decide
  fitInts := by decide

theorem exGraphE1_ok : GraphOk exGraphE1.bytes 32 64 3 1 [[], [3], [2]] [[], str "3", str "2"] [] where
  file := ⟨⟨[], str "3 1", by decide, by decide, [], by decide⟩, by decide⟩
  adj := by decide
  last := by decide
  labels := by decide
  fitRows := by decide
  fitN := by decide
  fitM := by decide
  fitInts := by decide

-- (the number of integers, 3, is neither `m` nor `2m` here: the header check alone would throw; the next one has 4 = 2m)
def exGraphE2 : Mapping := ⟨str "3 2\n\n0 2\n1 1\n", 5⟩

theorem exGraphE2_ok : GraphOk exGraphE2.bytes 32 64 3 2 [[], [0, 2], [1, 1]] [[], str "0 2", str "1 1"] [] where
  file := ⟨⟨[], str "3 2", by decide, by decide, [], by decide⟩, by decide⟩
  adj := by decide
  last := by decide
  labels := by decide
  fitRows := by decide
  fitN := by decide
  fitM := by decide
  fitInts := by decide

example : ∃ out : M (Csr Unit), LoadGraph exGraphE2 32 64 2 out ∧ out = .error .error ∧ HeaderOk 3 2 [[], [0, 2], [1, 1]] := by
  obtain ⟨out, h⟩ := loadGraph_exists (W := Unit) exGraphE2 32 64 2
  have hh : HeaderOk 3 2 [[], [0, 2], [1, 1]] := ⟨by decide, by decide⟩
  exact ⟨out, h, C60_empty_first_row_throws_violated exGraphE2 (by decide) 32 64 2 3 2 (by decide) [[0, 2], [1, 1]] _ []
    exGraphE2_ok hh ⟨str "0 2", by decide, by decide⟩ out h, hh⟩

example : ∃ (out : M (Csr Unit)) (c : Csr Unit), LoadGraph exGraphE1 32 64 2 out ∧ out = .ok c ∧ Spec.row c 1 = [3] := by
  obtain ⟨out, h⟩ := loadGraph_exists (W := Unit) exGraphE1 32 64 2
  obtain ⟨c, h1, h2, _⟩ := C60_empty_first_row_shifts_violated exGraphE1 (by decide) 32 64 2 3 1 (by decide) [3] [[2]] (by decide)
    [[], str "3", str "2"] [] exGraphE1_ok ⟨by decide, by decide⟩ (by
      rintro ⟨l, hl, h⟩
      have : ∀ l ∈ [[], str "3", str "2"] ++ [[]], [48] ∉ Spec.digitRuns l := by decide
      exact this l hl h) out h
  exact ⟨out, c, h, h1, h2⟩

/-! ### C61 -/

/-- **C61** (what holds) For files without comments after the header – whatever their rows, header and last line – the
possible outcomes are the same for any two thread counts.  Missing: comments. -/
theorem C61_thread_independent_partial (μ : Mapping) (hpad : 0 < μ.pad) (lw ow T T' n m : Nat) (hT : 0 < T) (hT' : 0 < T')
    (body : List (List Byte)) (tail : List Byte) (h : Spec.GraphFile μ.bytes n m body tail)
    (hrows : body.length + 2 < 2 ^ lw) (hints : (Spec.adjacency (body ++ [tail])).flatten.length < 2 ^ ow) (out : M (Csr W)) :
    LoadGraph μ lw ow T out ↔ LoadGraph μ lw ow T' out := by
  have h1 : (loadedRows body).length ≤ body.length := by
    have := dropWhile_len_le List.isEmpty (body.map Spec.digitRuns)
    simpa [loadedRows] using this
  have h2 := fileBase_le body tail
  have h3 : ((loadedRows body).flatten ++ Spec.digitRuns tail).length < 2 ^ ow := by
    have : (Spec.adjacency (body ++ [tail])).flatten = ((loadedRows body).flatten ++ Spec.digitRuns tail).map Spec.decimal := by
      unfold loadedRows Spec.adjacency
      rw [flatten_dropWhile, List.map_append, List.flatten_append, List.map_append, List.map_flatten, List.map_map]
      simp [Function.comp_def]
    rw [this, List.length_map] at hints
    exact hints
  rw [loadGraph_iff hpad h hT (by omega) h3, loadGraph_iff hpad h hT' (by omega) h3]

example : ∃ out : M (Csr Unit), LoadGraph exGraph0 32 64 1 out ∧ LoadGraph exGraph0 32 64 4 out := by
  obtain ⟨out, h⟩ := loadGraph_exists (W := Unit) exGraph0 32 64 1
  exact ⟨out, h, (C61_thread_independent_partial exGraph0 (by decide) 32 64 1 4 4 3 (by decide) (by decide) exBody0 []
    exGraph0_ok.file (by decide) (by decide) out).mp h⟩

/-! ### C62 -/

/-- **C62** If the number of integers is neither the declared `m` nor `2m`, every execution throws. -/
theorem C62_edge_count (μ : Mapping) (hpad : 0 < μ.pad) (lw ow T n m : Nat) (hT : 0 < T) (rows : List (List Nat))
    (body : List (List Byte)) (tail : List Byte) (h : GraphOk μ.bytes lw ow n m rows body tail)
    (hm : rows.flatten.length ≠ m) (hm2 : rows.flatten.length ≠ 2 * m) (out : M (Csr W)) (hrun : LoadGraph μ lw ow T out) :
    out = .error .error := by
  rw [graphOk_result hpad h hT] at hrun
  rw [hrun, graphResult, flatten_dropWhile, twice_lt h.fitM, if_pos ⟨hm2, hm⟩]

/-- **C62** A 0-based file with fewer rows than declared throws. -/
theorem C62_missing_rows_zero_based (μ : Mapping) (hpad : 0 < μ.pad) (lw ow T n m : Nat) (hT : 0 < T) (rows : List (List Nat))
    (body : List (List Byte)) (tail : List Byte) (h : GraphOk μ.bytes lw ow n m rows body tail)
    (hz : Spec.ZeroBased body tail) (hn : rows.length < n) (out : M (Csr W)) (hrun : LoadGraph μ lw ow T out) :
    out = .error .error := by
  rw [graphOk_result hpad h hT, fileBase_zero.mpr hz] at hrun
  have h1 := dropWhile_len_le List.isEmpty rows
  rw [hrun, graphResult]
  split
  · rfl
  · rw [if_pos (by omega)]

/-- **C62 is violated** by 1-based files with exactly one row less than declared: every execution accepts them. -/
theorem C62_one_row_missing_violated (μ : Mapping) (hpad : 0 < μ.pad) (lw ow T n m : Nat) (hT : 0 < T) (rows : List (List Nat))
    (body : List (List Byte)) (tail : List Byte) (h : GraphOk μ.bytes lw ow n m rows body tail)
    (hz : ¬ Spec.ZeroBased body tail) (hfirst : ∀ r, rows.head? = some r → r ≠ []) (hn : rows.length + 1 = n)
    (he : rows.flatten.length = m ∨ rows.flatten.length = 2 * m) (out : M (Csr W)) (hrun : LoadGraph μ lw ow T out) :
    ∃ c, out = .ok c := by
  rw [graphOk_result hpad h hT, headNonempty hfirst, fileBase_one.mpr hz, graphResult_ok h.fitM he (by omega)] at hrun
  exact ⟨_, hrun⟩

/-- **C62** (what holds for 1-based files) With at least two rows less than declared every execution throws. -/
theorem C62_missing_rows_one_based_partial (μ : Mapping) (hpad : 0 < μ.pad) (lw ow T n m : Nat) (hT : 0 < T) (rows : List (List Nat))
    (body : List (List Byte)) (tail : List Byte) (h : GraphOk μ.bytes lw ow n m rows body tail)
    (hn : rows.length + 1 < n) (out : M (Csr W)) (hrun : LoadGraph μ lw ow T out) : out = .error .error := by
  rw [graphOk_result hpad h hT] at hrun
  have h1 := dropWhile_len_le List.isEmpty rows
  have h2 := fileBase_le body tail
  rw [hrun, graphResult]
  split
  · rfl
  · rw [if_pos (by omega)]

/-- One row of a declared 4 is missing. -/
def exGraphM : Mapping := ⟨str "4 2\n2\n1 3\n2\n", 5⟩
theorem exGraphM_ok : GraphOk exGraphM.bytes 32 64 4 2 exRows1 exBody1 [] where
  file := ⟨⟨[], str "4 2", by decide, by decide, [], by decide⟩, by decide⟩
  adj := by decide
  last := by decide
  labels := by decide
  fitRows := by decide
  fitN := by decide
  fitM := by decide
  fitInts := by decide

example : ∃ (out : M (Csr Unit)) (c : Csr Unit), LoadGraph exGraphM 32 64 2 out ∧ out = .ok c := by
  obtain ⟨out, h⟩ := loadGraph_exists (W := Unit) exGraphM 32 64 2
  obtain ⟨c, hc⟩ := C62_one_row_missing_violated exGraphM (by decide) 32 64 2 4 2 (by decide) exRows1 exBody1 []
    exGraphM_ok exGraph1_one (by decide) (by decide) (by decide) out h
  exact ⟨out, c, h, hc⟩

example : ∃ out : M (Csr Unit), LoadGraph exGraphE0 32 64 2 out ∧ out = .error .error := by
  obtain ⟨out, h⟩ := loadGraph_exists (W := Unit) exGraphE0 32 64 2
  exact ⟨out, h, C62_edge_count exGraphE0 (by decide) 32 64 2 3 2 (by decide) _ _ [] exGraphE0_ok (by decide) (by decide) out h⟩

/-- Declared 5 vertices, 3 rows: both row checks apply. -/
def exGraphF0 : Mapping := ⟨str "5 2\n1\n0 2\n1\n", 5⟩
def exGraphF1 : Mapping := ⟨str "5 2\n2\n1 3\n2\n", 5⟩
theorem exGraphF0_ok : GraphOk exGraphF0.bytes 32 64 5 2 [[1], [0, 2], [1]] [str "1", str "0 2", str "1"] [] where
  file := ⟨⟨[], str "5 2", by decide, by decide, [], by decide⟩, by decide⟩
  adj := by decide
  last := by decide
  labels := by decide
  fitRows := by decide
  fitN := by decide
  fitM := by decide
  fitInts := by decide
theorem exGraphF1_ok : GraphOk exGraphF1.bytes 32 64 5 2 exRows1 exBody1 [] where
  file := ⟨⟨[], str "5 2", by decide, by decide, [], by decide⟩, by decide⟩
  adj := by decide
  last := by decide
  labels := by decide
  fitRows := by decide
  fitN := by decide
  fitM := by decide
  fitInts := by decide

example : (∃ out : M (Csr Unit), LoadGraph exGraphF0 32 64 2 out ∧ out = .error .error) ∧
    ∃ out : M (Csr Unit), LoadGraph exGraphF1 32 64 2 out ∧ out = .error .error := by
  obtain ⟨o1, h1⟩ := loadGraph_exists (W := Unit) exGraphF0 32 64 2
  obtain ⟨o2, h2⟩ := loadGraph_exists (W := Unit) exGraphF1 32 64 2
  exact ⟨⟨o1, h1, C62_missing_rows_zero_based exGraphF0 (by decide) 32 64 2 5 2 (by decide) _ _ [] exGraphF0_ok
    ⟨str "0 2", by decide, by decide⟩ (by decide) o1 h1⟩,
    o2, h2, C62_missing_rows_one_based_partial exGraphF1 (by decide) 32 64 2 5 2 (by decide) _ _ [] exGraphF1_ok (by decide) o2 h2⟩

end Pigo
