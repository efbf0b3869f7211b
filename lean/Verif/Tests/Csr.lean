import Verif.Tests.Coo
import Verif.Props.GraphComments
import Verif.Props.CsrSort

/-!
# The project's tests of CSR, Graph, DiGraph and Matrix (tests/csr)

As `Verif.Tests.Coo`: the `EQ`s of the tests for their own data files, any number of threads, any schedule, any padding.
-/

namespace Pigo.Tests

theorem quiet_single {body : List (List Byte)} (h : ∀ i, i < body.length → ∀ l ∈ (body[i]?).toList, ∀ l' ∈ (body[i + 1]?).toList,
      Spec.comment l ≠ [] → ∀ b ∈ l'.head?.toList, Spec.isComment b = false) (i : Nat) (l l' : List Byte) (h1 : body[i]? = some l)
    (h2 : body[i + 1]? = some l') (hc : Spec.comment l ≠ []) (b : Byte) (hb : l'.head? = some b) : Spec.isComment b = false :=
  h i (List.getElem?_eq_some_iff.mp h1).1 l (by rw [h1]; simp) l' (by rw [h2]; simp) hc b (by rw [hb]; simp)

/-! ### test_csr_read.cpp -/

/-- The CSR of the three triangle files. -/
def IsTriangle (c : Csr Unit) : Prop := c.n = 3 ∧ c.m = 6 ∧ c.offsets.take 4 = [0, 2, 4, 6] ∧ c.endpoints = [1, 2, 0, 2, 0, 1]

def triBody : List (List Byte) := [str "1 2", str "0 2", str "0 1"]

theorem triBody_zero : QuietZero triBody := ⟨str "0 2", by decide +kernel, by decide +kernel⟩

theorem triangle_quiet : GraphQuiet triangleGraph 32 32 3 6 [[1, 2], [0, 2], [0, 1]] triBody [] where
  file := ⟨[], str "3 6", by decide +kernel, by decide +kernel, [], by decide +kernel⟩
  quiet := ⟨by decide +kernel, by decide +kernel, quiet_single (by decide +kernel), rfl⟩
  adj := by decide +kernel
  last := by decide +kernel
  labels := by decide
  fitRows := by decide
  fitN := by decide
  fitM := by decide
  fitInts := by decide

theorem triangle2m_quiet : GraphQuiet triangle2mGraph 32 32 3 3 [[1, 2], [0, 2], [0, 1]] triBody [] where
  file := ⟨[], str "3 3 0 0 0", by decide +kernel, by decide +kernel, [0, 0, 0], by decide +kernel⟩
  quiet := ⟨by decide +kernel, by decide +kernel, quiet_single (by decide +kernel), rfl⟩
  adj := by decide +kernel
  last := by decide +kernel
  labels := by decide
  fitRows := by decide
  fitN := by decide
  fitM := by decide
  fitInts := by decide

theorem messy_quiet : GraphQuiet triangleMessyGraph 32 32 3 6 exTriMessyRows exTriMessyBody [] := by
  have e : triangleMessyGraph = exTriMessy.bytes := by decide +kernel
  rw [e]
  have h := exTriMessy_quiet
  exact ⟨h.file, h.quiet, h.adj, h.last, h.labels, h.fitRows, h.fitN, by decide, by decide⟩

theorem graphAny {bs : List Byte} {lw ow n m : Nat} {rows : List (List Nat)} {body : List (List Byte)} {tail : List Byte}
    (h : GraphQuiet bs lw ow n m rows body tail) {base : Nat} (hb : QuietZero body ∧ base = 0 ∨ ¬ QuietZero body ∧ base = 1)
    {pad T : Nat} (hpad : 0 < pad) (hT : 0 < T) {out : M (Csr Unit)} (hrun : LoadGraph ⟨bs, pad⟩ lw ow T out) :
    out = graphResult lw ow n m base (rows.dropWhile List.isEmpty) :=
  graphQuiet_result (μ := ⟨bs, pad⟩) hpad h hT hb hrun

/-- `CSR<L, O>(fn, GRAPH)`: what it holds. -/
theorem graph {bs : List Byte} {lw ow n m : Nat} {rows : List (List Nat)} {body : List (List Byte)} {tail : List Byte}
    (h : GraphQuiet bs lw ow n m rows body tail) {base : Nat} (hb : QuietZero body ∧ base = 0 ∨ ¬ QuietZero body ∧ base = 1)
    (he : (rows.dropWhile List.isEmpty).flatten.length = m ∨ (rows.dropWhile List.isEmpty).flatten.length = 2 * m)
    (hn : n ≤ base + (rows.dropWhile List.isEmpty).length) {pad T : Nat} (hpad : 0 < pad) (hT : 0 < T) {out : M (Csr Unit)}
    (hrun : LoadGraph ⟨bs, pad⟩ lw ow T out) : out = .ok (graphCsr lw n base (rows.dropWhile List.isEmpty)) :=
  (graphQuiet_result (μ := ⟨bs, pad⟩) hpad h hT hb hrun).trans (graphResult_ok h.fitM he hn)

/-- `read_graph`, `read_mval` and `read_graph_messy`. -/
example (pad T : Nat) (hpad : 0 < pad) (hT : 0 < T) (out : M (Csr Unit)) :
    (LoadGraph ⟨triangleGraph, pad⟩ 32 32 T out → ∃ c, out = .ok c ∧ IsTriangle c) ∧
    (LoadGraph ⟨triangle2mGraph, pad⟩ 32 32 T out → ∃ c, out = .ok c ∧ IsTriangle c) ∧
    (LoadGraph ⟨triangleMessyGraph, pad⟩ 32 32 T out → ∃ c, out = .ok c ∧ IsTriangle c) := by
  refine ⟨fun h => ⟨_, graph triangle_quiet (.inl ⟨triBody_zero, rfl⟩) (.inl (by decide)) (by decide) hpad hT h, ?_⟩,
    fun h => ⟨_, graph triangle2m_quiet (.inl ⟨triBody_zero, rfl⟩) (.inr (by decide)) (by decide) hpad hT h, ?_⟩,
    fun h => ⟨_, graph messy_quiet (.inl ⟨⟨str "0 2                 ", by decide +kernel, by decide +kernel⟩, rfl⟩) (.inl (by decide))
      (by decide) hpad hT h, ?_⟩⟩
  all_goals (unfold IsTriangle; decide +kernel)

def badBody : List (List Byte) := exTriMessyBody ++ [str " NO 2 numbers allowed after"]

theorem bad_quiet : GraphQuiet triangleBadGraph 8 8 3 6 (exTriMessyRows ++ [[2]]) badBody [] where
  file := ⟨[str "% comments 3 4 5", str "# 11 22   "], str "        3 6 % the header <-", by decide +kernel, by decide +kernel, [], by decide +kernel⟩
  quiet := ⟨by decide +kernel, by decide +kernel, quiet_single (by decide +kernel), rfl⟩
  adj := by decide +kernel
  last := by decide +kernel
  labels := by decide
  fitRows := by decide
  fitN := by decide
  fitM := by decide
  fitInts := by decide

/-- `fail_graph_bad`: one more number after the rows. -/
example (pad T : Nat) (hpad : 0 < pad) (hT : 0 < T) (out : M (Csr Unit)) (hrun : LoadGraph ⟨triangleBadGraph, pad⟩ 8 8 T out) :
    out = .error .error := by
  have hr := graphAny bad_quiet (.inl ⟨⟨str "0 2                 ", by decide +kernel, by decide +kernel⟩, rfl⟩) hpad hT hrun
  rw [hr]
  unfold graphResult
  rw [if_pos (by decide +kernel)]

/-! ### test_csr_rect.cpp, test_base_one.cpp, test_csr_sort.cpp -/

def rectBody : List (List Byte) := [str "# just another comment", str "1 3 5", str "1 3 4 5"]

theorem rect_quiet : GraphQuiet rectGraph 32 32 2 7 [[], [1, 3, 5], [1, 3, 4, 5]] rectBody [] where
  file := ⟨[str "% this is a rectangular graph", str "% header below is:", str "% <num vertices> <num *edges*> <weight type>",
    str "% vertices start at 1, and num edges does not count the sum of degrees"], str "2 7 0", by decide +kernel, by decide +kernel, [0],
    by decide +kernel⟩
  quiet := ⟨by decide +kernel, by decide +kernel, quiet_single (by decide +kernel), rfl⟩
  adj := by decide +kernel
  last := by decide +kernel
  labels := by decide
  fitRows := by decide
  fitN := by decide
  fitM := by decide
  fitInts := by decide

theorem notZero {body : List (List Byte)} (h : ∀ l ∈ body, [48] ∉ Spec.digitRuns (Spec.stripComment l)) : ¬ QuietZero body :=
  fun ⟨l, h1, h2⟩ => h l h1 h2

/-- `rect_csr`. -/
example (pad T : Nat) (hpad : 0 < pad) (hT : 0 < T) (out : M (Csr Unit)) (hrun : LoadGraph ⟨rectGraph, pad⟩ 32 32 T out) :
    ∃ c, out = .ok c ∧ c.nrows = 3 ∧ c.ncols = 6 :=
  ⟨_, graph rect_quiet (.inr ⟨notZero (by decide +kernel), rfl⟩) (.inl (by decide +kernel)) (by decide +kernel) hpad hT hrun, by decide +kernel⟩

def base1Body : List (List Byte) := [str "# just another comment", str "5 4 3   % vertex one's edges", str "6", str "1 4 5",
  str "1 3 10  % vertex four", str "1 3", str "2", str "8 9 10", str "7", str "7", str "4 7"]
def base1Rows : List (List Nat) := [[], [5, 4, 3], [6], [1, 4, 5], [1, 3, 10], [1, 3], [2], [8, 9, 10], [7], [7], [4, 7]]

theorem base1_quiet : GraphQuiet base1Graph 32 32 10 10 base1Rows base1Body [] where
  file := ⟨[str "% this is a symmetric graph", str "% header below is:", str "% <num vertices> <num *edges*> <weight type>",
    str "% vertices start at 1, and num edges does not count the sum of degrees"], str "10 10 0", by decide +kernel, by decide +kernel, [0],
    by decide +kernel⟩
  quiet := ⟨by decide +kernel, by decide +kernel, quiet_single (by decide +kernel), rfl⟩
  adj := by decide +kernel
  last := by decide +kernel
  labels := by decide
  fitRows := by decide
  fitN := by decide
  fitM := by decide
  fitInts := by decide

def base1Csr : Csr Unit := graphCsr 32 10 1 (base1Rows.dropWhile List.isEmpty)

theorem base1_load {pad T : Nat} (hpad : 0 < pad) (hT : 0 < T) {out : M (Csr Unit)} (hrun : LoadGraph ⟨base1Graph, pad⟩ 32 32 T out) :
    out = .ok base1Csr :=
  graph base1_quiet (.inr ⟨notZero (by decide +kernel), rfl⟩) (.inr (by decide +kernel)) (by decide +kernel) hpad hT hrun

/-- `base_one`; the neighbors of vertex 1 are written in the order of the file. -/
example (pad T : Nat) (hpad : 0 < pad) (hT : 0 < T) (out : M (Csr Unit)) (hrun : LoadGraph ⟨base1Graph, pad⟩ 32 32 T out) :
    ∃ c, out = .ok c ∧ c.n = 10 ∧ c.m = 20 ∧ Spec.row c 1 = [5, 4, 3] ∧ Spec.off c 2 - Spec.off c 1 = 3 :=
  ⟨_, base1_load hpad hT hrun, by decide +kernel⟩

theorem sorted_unique {l r : List Nat} (h : l.Perm r) (hl : l.Pairwise (· ≤ ·)) (hr : r.Pairwise (· ≤ ·)) : l = r :=
  h.eq_of_pairwise (fun _ _ _ _ h1 h2 => Nat.le_antisymm h1 h2) hl hr

end Pigo.Tests
