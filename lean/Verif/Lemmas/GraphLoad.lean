import Verif.Lemmas.GraphExec

/-!
# Loading a `.graph` file without comments in its body
-/

namespace Pigo

/-! ## Tokens and lines -/

theorem mem_takeWhile' {P : Byte → Bool} : ∀ {l : List Byte} {a : Byte}, a ∈ l.takeWhile P → P a = true
  | [], _, h => by simp at h
  | c :: l, a, h => by
    rw [List.takeWhile_cons] at h
    split at h
    · rcases List.mem_cons.mp h with rfl | h
      · assumption
      · exact mem_takeWhile' h
    · simp at h

theorem tk_line : ∀ (n : Nat) (l : List Byte), l.length ≤ n → nl ∉ l → tk [] l = (Spec.digitRuns l).map Tok.int
  | n, [], _, _ => by rw [digitRuns_nil]; rfl
  | 0, c :: l, h, _ => by simp at h
  | n+1, c :: l, h, hn => by
    by_cases hc : isDigit c = true
    · have h1 : (c :: l).takeWhile isDigit ≠ [] := by rw [List.takeWhile_cons, if_pos hc]; simp
      have h2 : ∀ a ∈ (c :: l).takeWhile isDigit, isDigit a = true := fun a ha => mem_takeWhile' ha
      have h3 : ∀ a t, (c :: l).dropWhile isDigit = a :: t → isDigit a = false := by
        intro a t hat
        have := List.head?_dropWhile_not (p := isDigit) (l := c :: l)
        rw [hat] at this
        simpa using this
      have h4 : (c :: l).takeWhile isDigit ++ (c :: l).dropWhile isDigit = c :: l := List.takeWhile_append_dropWhile
      have h5 : ((c :: l).dropWhile isDigit).length ≤ n := by
        rw [List.dropWhile_cons, if_pos hc]
        have := (dropWhile_suffix' isDigit l).length_le
        simp at h; omega
      have ih := tk_line n ((c :: l).dropWhile isDigit) h5 (not_mem_dropWhile _ hn)
      rw [← h4, tk_run h2 h1 h3, digitRuns_run _ _ h2 h1 h3, ih, List.map_cons]
    · have hc' := Bool.eq_false_iff.mpr hc
      have ih := tk_line n l (by simpa using h) (fun hm => hn (List.mem_cons_of_mem _ hm))
      rw [tk, if_neg hc, digitRuns_cons_nondigit c l hc', ih]
      have : c ≠ nl := fun h' => hn (by simp [h'])
      simp [flush, this]

theorem tk_text (body : List (List Byte)) (tail : List Byte) (hb : NoNl body) (ht : nl ∉ tail) :
    tk [] (text body ++ tail) = toks (body.map Spec.digitRuns) (Spec.digitRuns tail) := by
  induction body with
  | nil => rw [text_nil, List.nil_append, List.map_nil, toks_nil]; exact tk_line _ _ (Nat.le_refl _) ht
  | cons l body ih =>
    have hl := hb l (List.mem_cons_self ..)
    rw [text_cons, List.map_cons, toks_cons, ← ih (fun l' h => hb l' (List.mem_cons_of_mem _ h)),
      show l ++ nl :: text body ++ tail = (l ++ [nl]) ++ (text body ++ tail) from by simp,
      tk_append (.inl (.inr ⟨l, nl, rfl, by decide⟩)), ← tk_line _ _ (Nat.le_refl _) hl]
    have : tk [] (l ++ [nl]) = tk [] l ++ [Tok.nl] := by
      have : ∀ cur, tk cur (l ++ [nl]) = tk cur l ++ [Tok.nl] := by
        clear ih hb hl
        induction l with
        | nil => intro cur; simp [tk, flush, isDigit_nl]
        | cons c l ih =>
          intro cur
          rw [List.cons_append, tk, tk]
          split
          · exact ih _
          · rw [ih]; simp
      exact this []
    rw [this]; simp

/-- Is it a newline? -/
def Tok.isNl : Tok → Bool
  | .nl => true
  | .int _ => false

theorem tk_first (s : List Byte) : tk [] (s.dropWhile (fun b => !isDigit b)) = (tk [] s).dropWhile Tok.isNl := by
  induction s with
  | nil => rfl
  | cons c s ih =>
    rw [List.dropWhile_cons]
    split
    · rename_i h
      have hc : ¬ isDigit c = true := by simpa using h
      rw [ih, tk, if_neg hc]
      by_cases h' : c = nl
      · subst h'; simp [flush, List.dropWhile_cons, Tok.isNl]
      · simp [flush, h']
    · rename_i h
      have hc : isDigit c = true := by simpa using h
      have h1 : (c :: s).takeWhile isDigit ≠ [] := by rw [List.takeWhile_cons, if_pos hc]; simp
      have h2 : ∀ a ∈ (c :: s).takeWhile isDigit, isDigit a = true := fun a ha => mem_takeWhile' ha
      have h3 : ∀ a t, (c :: s).dropWhile isDigit = a :: t → isDigit a = false := by
        intro a t hat
        have := List.head?_dropWhile_not (p := isDigit) (l := c :: s)
        rw [hat] at this
        simpa using this
      rw [← List.takeWhile_append_dropWhile (p := isDigit) (l := c :: s), tk_run h2 h1 h3]
      simp [List.dropWhile_cons, Tok.isNl]

theorem toks_first (rows : List (List (List Byte))) (tail : List (List Byte)) :
    (toks rows tail).dropWhile Tok.isNl = toks (rows.dropWhile List.isEmpty) tail := by
  induction rows with
  | nil =>
    rw [toks_nil, List.dropWhile_nil, toks_nil]
    cases tail <;> simp [List.dropWhile_cons, Tok.isNl]
  | cons r rows ih =>
    cases r with
    | nil =>
      rw [toks_cons, List.map_nil, List.nil_append, List.dropWhile_cons, if_pos (by rfl), ih, List.dropWhile_cons, if_pos (by rfl)]
    | cons a r =>
      rw [List.dropWhile_cons, if_neg (by simp), toks_cons, List.map_cons, List.cons_append, List.dropWhile_cons,
        if_neg (by simp [Tok.isNl])]

/-! ## The header -/

theorem graphHeader_eq {μ : Mapping} (hpad : 0 < μ.pad) {n m : Nat} {body : List (List Byte)} {tail : List Byte}
    (h : Spec.GraphFile μ.bytes n m body tail) (lw ow : Nat) :
    ∃ s, graphHeader μ lw ow (fileReader μ) = .ok (n % 2 ^ lw, m % 2 ^ ow, rd μ.bytes.length s) ∧
      GState μ μ.bytes.length s ∧
      tk [] s = toks ((body.map Spec.digitRuns).dropWhile List.isEmpty) (Spec.digitRuns tail) := by
  obtain ⟨pre, hdr, hl, hpre, t, hhdr⟩ := h.layout
  have hno := lines_noNl μ.bytes
  rw [hl] at hno
  have hnp : NoNl pre := fun l h => hno l (by simp [h])
  have hns : nl ∉ hdr := hno hdr (by simp)
  have hnb : NoNl body := fun l h => hno l (by simp [h])
  have hnt : nl ∉ tail := hno tail (by simp)
  have hr : Readable μ μ.bytes.length := by unfold Readable; omega
  have htext : μ.bytes = text pre ++ (hdr ++ nl :: (text body ++ tail)) := by
    have h1 := text_lines μ.bytes
    have h2 : (Spec.lines μ.bytes).dropLast = pre ++ hdr :: body := by
      rw [hl, show pre ++ hdr :: (body ++ [tail]) = (pre ++ hdr :: body) ++ [tail] from by simp, List.dropLast_concat]
    have h3 : (Spec.lines μ.bytes).getLast (Spec.lines_ne_nil _) = tail := by
      simp only [hl]
      rw [List.getLast_append_of_ne_nil (by simp) (by simp), List.getLast_cons (by simp), List.getLast_append_of_ne_nil (by simp) (by simp)]
      rfl
    rw [h2, h3, text_append, text_cons] at h1
    simpa using h1
  have hnc : NoCom (text body ++ tail) := by
    intro c hc
    have : c = nl ∨ ∃ l ∈ body ++ [tail], c ∈ l := by
      rcases List.mem_append.mp hc with hc | hc
      · simp only [text, List.mem_flatten, List.mem_map] at hc
        obtain ⟨_, ⟨l, hl', rfl⟩, hc⟩ := hc
        rcases List.mem_append.mp hc with hc | hc
        · exact .inr ⟨l, by simp [hl'], hc⟩
        · exact .inl (by simpa using hc)
      · exact .inr ⟨tail, by simp, hc⟩
    rcases this with rfl | ⟨l, hl', hc⟩
    · exact isCom_nl
    · rw [← isCom_spec]; exact h.nocom l hl' c hc
  have htk := tk_text body tail hnb hnt
  generalize hrest : text body ++ tail = rest at *
  have v := View.full μ
  have hrd : fileReader μ = rd μ.bytes.length μ.bytes := by simp [fileReader, rd]
  have hfst : firstIntL μ.bytes = firstIntL hdr ++ nl :: rest := by
    rw [htext, firstInt_blank hnp hpre]
    show toStop isDigit false _ = _
    rw [toStop_line isDigit isDigit_nl hdr rest hns, if_neg]
    intro hc
    rw [firstIntL_nil_iff hdr hns, hhdr] at hc; cases hc
  have v0 : View μ μ.bytes.length (firstIntL hdr ++ nl :: rest) := by
    rw [← hfst]
    exact v.of_suffix (toStop_suffix _ _ _)
  obtain ⟨l1, n1, i1, v1, r1, m1⟩ := readInt_step hr lw hns hhdr v0
  obtain ⟨m1, v1'⟩ := m1 (by simp)
  obtain ⟨l2, n2, i2, v2, r2, m2⟩ := readInt_step hr ow n1 i1 v1'
  have he : eolL (l2 ++ nl :: rest) = nl :: rest := eolL_line l2 rest n2
  have ve : View μ μ.bytes.length (nl :: rest) := v2.append
  have hsuf : firstIntL rest <:+ rest := toStop_suffix _ _ _
  refine ⟨firstIntL rest, ?_, ⟨ve.tail.of_suffix hsuf, hpad, rfl, hnc.suffix hsuf, ?_⟩, ?_⟩
  · unfold graphHeader
    rw [hrd, moveToFirstInt_eq v hr, hfst, ok_bind, r1, ok_bind]
    simp only []
    rw [m1, ok_bind, r2, ok_bind]
    simp only []
    rw [moveToEol_eq v2, he, ok_bind, moveToNextInt_eq ve hr, nextIntL_nl, ok_bind]
  · intro c t hct
    exact (toStop_head isDigit false rest c t hct).1
  · rw [firstIntL_noCom hnc, tk_first, htk, toks_first]

/-! ## The outcome of loading -/

/-- An execution of the constructor `CSR(fn, GRAPH)` (impl/csr.impl.hpp 18–23, 58–59, 255–424). -/
def LoadGraph {W : Type} (μ : Mapping) (lw ow T : Nat) (out : M (Csr W)) : Prop :=
  (readGraph lw ow T μ (fileReader μ)).Out out

theorem loadGraph_exists {W : Type} (μ : Mapping) (lw ow T : Nat) : ∃ out : M (Csr W), LoadGraph μ lw ow T out := by
  unfold LoadGraph readGraph
  refine R.Any.bind (R.Any.lift _) (fun p => R.Any.bind R.Any.any (fun jo => R.Any.bind R.Any.any (fun je =>
    R.Any.bind (R.Any.lift _) (fun o => R.Any.bind (R.Any.par _ _ _) (fun q => R.Any.lift _)))))

/-- The loaded rows: the adjacency lists without the empty ones before the first non-empty one. -/
noncomputable def loadedRows (body : List (List Byte)) : List (List (List Byte)) := (body.map Spec.digitRuns).dropWhile List.isEmpty

/-- Number of the first row. -/
noncomputable def fileBase (body : List (List Byte)) (tail : List Byte) : Nat :=
  if [48] ∈ (body.map Spec.digitRuns).flatten ++ Spec.digitRuns tail then 0 else 1

theorem flatten_dropWhile {α : Type} (l : List (List α)) : (l.dropWhile List.isEmpty).flatten = l.flatten := by
  induction l with
  | nil => rfl
  | cons a l ih =>
    rw [List.dropWhile_cons]
    split
    · rename_i h
      rw [List.isEmpty_iff] at h
      subst h; rw [ih, List.flatten_cons, List.nil_append]
    · rfl

theorem fileBase_zero {body : List (List Byte)} {tail : List Byte} : fileBase body tail = 0 ↔ Spec.ZeroBased body tail := by
  unfold fileBase Spec.ZeroBased
  constructor
  · intro h
    split at h
    · rename_i hm
      rcases List.mem_append.mp hm with hm | hm
      · rw [List.mem_flatten] at hm
        obtain ⟨r, hr, hm⟩ := hm
        obtain ⟨l, hl, rfl⟩ := List.mem_map.mp hr
        exact ⟨l, by simp [hl], hm⟩
      · exact ⟨tail, by simp, hm⟩
    · cases h
  · rintro ⟨l, hl, hm⟩
    rw [if_pos]
    rcases List.mem_append.mp hl with hl | hl
    · exact List.mem_append_left _ (List.mem_flatten.mpr ⟨_, List.mem_map.mpr ⟨l, hl, rfl⟩, hm⟩)
    · rw [List.mem_singleton] at hl; subst hl
      exact List.mem_append_right _ hm

theorem fileBase_one {body : List (List Byte)} {tail : List Byte} : fileBase body tail = 1 ↔ ¬ Spec.ZeroBased body tail := by
  rw [← fileBase_zero]; unfold fileBase; split <;> simp

theorem loadGraph_iff {W : Type} {μ : Mapping} (hpad : 0 < μ.pad) {n m : Nat} {body : List (List Byte)} {tail : List Byte}
    (h : Spec.GraphFile μ.bytes n m body tail) {lw ow T : Nat} (hT : 0 < T)
    (hn : fileBase body tail + (loadedRows body).length + 1 < 2 ^ lw)
    (hm : ((loadedRows body).flatten ++ Spec.digitRuns tail).length < 2 ^ ow) (out : M (Csr W)) :
    LoadGraph μ lw ow T out ↔ ∃ junk : List Nat, junk.length = (Spec.digitRuns tail).length ∧
      out = graphFinish lw ow { readN := n % 2 ^ lw, readM := m % 2 ^ ow, n := fileBase body tail + (loadedRows body).length
                                m := ((loadedRows body).flatten ++ Spec.digitRuns tail).length, base := fileBase body tail
                                threads := [], colMax := ((loadedRows body).flatten.map (rval lw)).foldl max 0 }
        (graphOffsets (fileBase body tail) (loadedRows body) (Spec.digitRuns tail))
        ((loadedRows body).flatten.map (rval lw) ++ junk) := by
  obtain ⟨s, h1, h2, h3⟩ := graphHeader_eq hpad h lw ow
  have hb : fileBase body tail = baseOf (tk [] s) := by
    rw [h3, baseOf, zeroIn_toks, flatten_dropWhile, fileBase]
    simp only [decide_eq_true_eq]
  exact readGraph_iff hT h1 h2 h3 hb hn hm out

end Pigo
