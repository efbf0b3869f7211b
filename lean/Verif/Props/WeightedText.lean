import Verif.Lemmas.WeightedRest
import Verif.Props.Robust

/-!
# Properties: weighted edge lists out of arbitrary or cut text files

C88.  `LoadEdgeList` is `COO(fn, EDGE_LIST)`: all interleavings of the threads' stores and all contents of uninitialised memory.
-/

namespace Pigo

variable {W : Type}

theorem loadEl_exists (μ : Mapping) (lw ow : Nat) (cfg : Cfg) (ww T : Nat) : ∃ out, LoadEdgeList μ lw ow cfg (wUint ww) T out := by
  unfold LoadEdgeList ReadEl
  split
  · exact ⟨_, rfl⟩
  · rename_i p _
    exact ⟨_, ⟨fun _ => 0, fun _ => 0, fun _ => 0⟩, _, interleave_flatten _, rfl⟩

/-! ## Arbitrary text -/

/-- **C88**, partial: whatever the bytes of the file (mapped without touching the next page), loading it with unsigned weights
reads nothing outside of the file and ends, with arrays of one size that fits in the file and is the same in every schedule - or
with a store outside of the array of weights, in which case no schedule avoids it.  Missing: the absence of such stores, which
fails (below). -/
theorem C88_any_text_partial (page : Nat) (hp : 0 < page) (file : List Byte) (hd : ¬ page ∣ file.length) (lw ow ww T : Nat) (hT : 0 < T)
    (hm : file.length < 2 ^ ow) :
    (∃ out, LoadEdgeList (mapFile page file) lw ow {} (wUint ww) T out) ∧
    ((∀ out, LoadEdgeList (mapFile page file) lw ow {} (wUint ww) T out → out = .error .oob) ∨
     ∃ m ≤ file.length, ∀ out, LoadEdgeList (mapFile page file) lw ow {} (wUint ww) T out →
      ∃ c, out = .ok c ∧ c.m = m ∧ c.x.length = m ∧ c.y.length = m ∧ c.w.length = m) := by
  refine ⟨loadEl_exists .., ?_⟩
  have hpad : 0 < (mapFile page file).pad := (mapFile_pad hp).mpr hd
  have hbytes : (mapFile page file).bytes = file := rfl
  generalize mapFile page file = μ at hpad hbytes ⊢
  subst hbytes
  unfold LoadEdgeList
  rw [fileReader_all]
  obtain ⟨h1, h2⟩ := readEl_w (View.full μ) (endB_file hpad) (lw := lw) (cfg := {}) rfl (wUint_any _ ww) hT hm
  by_cases ht : ∃ tid < T, TornOut lw (fun s => numAt ww (nextIntL s)) (fun s => afterNum (nextIntL s)) μ.bytes T tid
  · exact .inl (h1 ht)
  · refine .inr ⟨cStart μ.bytes T T, by have := cStart_le μ.bytes T T; omega, fun out ho => ?_⟩
    obtain ⟨c, e, a1, a2, a3, a4⟩ := h2 (fun tid h hh => ht ⟨tid, h, hh⟩) out ho
    exact ⟨c, e, a1, by rw [a2, a1], by rw [a3, a1], by rw [a4, a1]⟩

/-- **C88**: a file whose lines have two numbers at least or none, with or without a newline at the end: the number of entries
is that of the lines with numbers, in every execution, whether the weights are there or not. -/
theorem C88_number_of_entries (μ : Mapping) (hpad : 0 < μ.pad) (lw ow ww T : Nat) (hT : 0 < T) (hm : μ.bytes.length < 2 ^ ow)
    (h2 : ∀ l ∈ Spec.lines μ.bytes, Spec.ints l = [] ∨ 2 ≤ (Spec.ints l).length) (c : Coo Nat)
    (hrun : LoadEdgeList μ lw ow {} (wUint ww) T (.ok c)) : c.m = (Spec.edges μ.bytes).length := by
  unfold LoadEdgeList at hrun
  rw [fileReader_all] at hrun
  obtain ⟨h1, h2'⟩ := readEl_w (View.full μ) (endB_file hpad) (lw := lw) (cfg := {}) rfl (wUint_any _ ww) hT hm
  by_cases ht : ∃ tid < T, TornOut lw (fun s => numAt ww (nextIntL s)) (fun s => afterNum (nextIntL s)) μ.bytes T tid
  · cases h1 ht _ hrun
  · obtain ⟨c', e, a1, _⟩ := h2' (fun tid h hh => ht ⟨tid, h, hh⟩) _ hrun
    cases e
    rw [a1]
    have hls : NoNl (Spec.lines μ.bytes).dropLast := fun l hl => lines_noNl μ.bytes l (List.dropLast_subset _ hl)
    have hτ := lines_noNl μ.bytes _ (List.getLast_mem (Spec.lines_ne_nil μ.bytes))
    have hsplit := List.dropLast_concat_getLast (Spec.lines_ne_nil μ.bytes)
    conv => lhs; rw [text_lines μ.bytes]
    rw [cStart_lines hls hτ (by rw [hsplit]; exact h2) hT, hsplit]
    rfl

/-- A text of no meaning. -/
example (T : Nat) (hT : 0 < T) : ∃ out, LoadEdgeList (mapFile 4096 (str "zz 1\n\n9 # 8\n2 2 2 2\n-3")) 32 64 {} (wUint 8) T out :=
  (C88_any_text_partial 4096 (by decide) (str "zz 1\n\n9 # 8\n2 2 2 2\n-3") (by decide) 32 64 8 T hT (by decide)).1

/-- Two columns where three are read: three entries. -/
example (T : Nat) (hT : 0 < T) (c : Coo Nat) (h : LoadEdgeList ⟨str "1 2\n3 4\n5 6\n", 9⟩ 32 64 {} (wUint 8) T (.ok c)) : c.m = 3 :=
  C88_number_of_entries ⟨str "1 2\n3 4\n5 6\n", 9⟩ (by decide) 32 64 8 T hT (by decide) (by decide) c h

/-! ## A number alone at the end -/

/-- **C88 fails**: lines with three numbers at least (or none), then a line with one number - as a file cut within its first
column has - and no number after it: every execution, with any number of threads, stores outside of the array of weights. -/
theorem C88_lone_number_violated (μ : Mapping) (hpad : 0 < μ.pad) (lw ow ww T : Nat) (hT : 0 < T) (hm : μ.bytes.length < 2 ^ ow)
    (L B : List (List Byte)) (l : List Byte) (hlines : Spec.lines μ.bytes = L ++ l :: B)
    (hL : ∀ l ∈ L, Spec.ints l = [] ∨ 3 ≤ (Spec.ints l).length) (hl : (Spec.ints l).length = 1) (hB : ∀ l ∈ B, Spec.ints l = []) :
    (∃ out, LoadEdgeList μ lw ow {} (wUint ww) T out) ∧ ∀ out, LoadEdgeList μ lw ow {} (wUint ww) T out → out = .error .oob := by
  refine ⟨loadEl_exists .., ?_⟩
  unfold LoadEdgeList
  rw [fileReader_all]
  refine (readEl_w (View.full μ) (endB_file hpad) (lw := lw) (cfg := {}) rfl (wUint_any _ ww) hT hm).1 ?_
  show ∃ tid < T, TornOut lw (uV ww) uS μ.bytes T tid
  have hnl := lines_noNl μ.bytes
  have hnL : NoNl L := fun l' h' => hnl l' (by rw [hlines]; simp [h'])
  have hnl1 : nl ∉ l := hnl l (by rw [hlines]; simp)
  have hnB : NoNl B := fun l' h' => hnl l' (by rw [hlines]; simp [h'])
  obtain ⟨x, hx⟩ : ∃ x, Spec.ints l = [x] := by
    match hi : Spec.ints l, hl with
    | [x], _ => exact ⟨x, rfl⟩
  obtain ⟨n0, g1, g2, n1, g3, g4, g5⟩ := nextInt_of_ints hnl1 hx
  have hnext : nextIntL (firstIntL l) = [] := g5.mpr rfl
  -- the text from the lone number on
  obtain ⟨LS, τ, σ, hLS, hτ, hfile, hσ1, hσ2, hdrop⟩ : ∃ LS τ σ, NoNl LS ∧ nl ∉ τ ∧ μ.bytes = text LS ++ τ ∧ firstIntL σ ≠ [] ∧ nextIntL (firstIntL σ) = [] ∧
      ∀ J ≤ LS.length, firstIntL (text (LS.drop J) ++ τ) = [] ∨ text (LS.drop J) ++ τ = text (L.drop J) ++ σ := by
    rcases List.eq_nil_or_concat B with rfl | ⟨B', τ, rfl⟩
    · refine ⟨L, l, l, hnL, hnl1, ?_, g1, hnext, fun J _ => .inr rfl⟩
      have := text_lines μ.bytes
      simp only [hlines, List.dropLast_concat, List.getLast_concat] at this
      exact this
    · have hn' : NoNl B' := fun l' h' => hnB l' (by simp [h'])
      have hnτ : nl ∉ τ := hnB τ (by simp)
      have hB'0 : ∀ l ∈ B', Spec.ints l = [] := fun l' h' => hB l' (by simp [h'])
      have hτ0 : firstIntL τ = [] := (firstIntL_nil_iff τ hnτ).mpr (hB τ (by simp))
      have hσ : firstIntL (text (l :: B') ++ τ) = firstIntL l ++ nl :: (text B' ++ τ) := by
        rw [text_cons, List.append_assoc, List.cons_append, first_line hnl1, if_neg (by rw [hx]; simp)]
      refine ⟨L ++ l :: B', τ, text (l :: B') ++ τ, ?_, hnτ, ?_, by rw [hσ]; simp, ?_, fun J hJ => ?_⟩
      · intro l' h'
        exact hnl l' (by rw [hlines]; simp only [List.mem_append, List.mem_cons, List.concat_eq_append] at h' ⊢; rcases h' with h | h | h <;> simp [h])
      · have := text_lines μ.bytes
        have h : Spec.lines μ.bytes = (L ++ l :: B') ++ [τ] := by rw [hlines]; simp
        simp only [h, List.dropLast_concat, List.getLast_concat] at this
        exact this
      · rw [hσ, nextIntL_over _ n0 hnext, firstInt_blank hn' hB'0, hτ0]
      · by_cases hj : J ≤ L.length
        · right
          rw [List.drop_append_of_le_length hj, text_append, List.append_assoc]
        · left
          have hdr : (L ++ l :: B').drop J = B'.drop (J - L.length - 1) := by
            rw [List.drop_append, List.drop_of_length_le (by omega), List.nil_append, show J - L.length = (J - L.length - 1) + 1 by omega, List.drop_succ_cons]
            congr 1
          rw [hdr, firstInt_blank (fun l' h' => hn' l' (List.mem_of_mem_drop h')) (fun l' h' => hB'0 l' (List.mem_of_mem_drop h')), hτ0]
  have hne : firstIntL (text LS ++ τ) ≠ [] := by
    rw [← hfile]; exact firstInt_file ⟨l, by rw [hlines]; simp, by rw [hx]; simp⟩
  rw [hfile]
  obtain ⟨tid, ht, J, hJ, hreg, hregne, hlast⟩ := last_region hLS hτ hT hne
  rcases hdrop J hJ with h | h
  · rw [hreg] at hregne; exact absurd h hregne
  rw [h] at hreg
  obtain ⟨q, i1, i2, i3⟩ := scan_lines (lw := lw) (ww := ww) (σ := σ) (L.drop J) (fun l' h' => hnL l' (List.mem_of_mem_drop h'))
    (fun l' h' => hL l' (List.mem_of_mem_drop h')) _ _ (Nat.le_refl _) (Nat.le_refl _)
  obtain ⟨j1, j2, j3⟩ := lone_scan (lw := lw) (ww := ww) hσ1 hσ2 (Nat.le_refl _)
  rw [← hreg] at i1 i2 i3
  rw [j1] at i1
  rw [j2] at i2
  rw [j3] at i3
  have i1 : cPart (text LS ++ τ) T tid = q := i1
  have i2 : (wPart lw (uV ww) uS (text LS ++ τ) T tid).1.length = q := i2
  have i3 : (wPart lw (uV ww) uS (text LS ++ τ) T tid).2 = some 0 := i3
  have hstay : ∀ d, tid + 1 + d ≤ T → cStart (text LS ++ τ) T (tid + 1 + d) = cStart (text LS ++ τ) T (tid + 1) := by
    intro d
    induction d with
    | zero => intro _; rfl
    | succ d ih =>
      intro h
      rw [← ih (by omega), show tid + 1 + (d + 1) = (tid + 1 + d) + 1 by omega, cStart_succ]
      have : cPart (text LS ++ τ) T (tid + 1 + d) = 0 := by
        unfold cPart
        rw [hlast _ (by omega)]; rfl
      rw [this]; rfl
  have hend := hstay (T - tid - 1) (by omega)
  rw [show tid + 1 + (T - tid - 1) = T by omega] at hend
  exact ⟨tid, ht, by rw [i3]; simp, by rw [i2, hend, cStart_succ, i1]⟩

/-- `1 2 3`, `4 5 6` and then a lone `7` (the file cut after the first digit of its third line). -/
example (T : Nat) (hT : 0 < T) : ∀ out, LoadEdgeList ⟨str "1 2 3\n4 5 6\n7", 9⟩ 32 64 {} (wUint 32) T out → out = .error .oob :=
  (C88_lone_number_violated ⟨str "1 2 3\n4 5 6\n7", 9⟩ (by decide) 32 64 32 T hT (by decide) [str "1 2 3", str "4 5 6"] [] (str "7") (by decide) (by decide) (by decide)
    (by decide)).2

/-- The same with comments and blank lines in it, and a newline after the number. -/
example (T : Nat) (hT : 0 < T) : ∀ out, LoadEdgeList ⟨str "# x\n1 2 3 4\n\n7\n", 9⟩ 32 64 {} (wUint 32) T out → out = .error .oob :=
  (C88_lone_number_violated ⟨str "# x\n1 2 3 4\n\n7\n", 9⟩ (by decide) 32 64 32 T hT (by decide) [str "# x", str "1 2 3 4", []] [[]] (str "7") (by decide) (by decide) (by decide)
    (by decide)).2

/-! ## An entry cut off at the end -/

/-- **C88 fails**: lines with three numbers at least (or none), then the text after the last newline with two numbers, or with three
and a digit at the end: every execution ends with one entry more than there are complete lines, and its labels are whatever
the memory held before: any two labels are possible, with any number of threads. -/
theorem C88_cut_entry_violated (μ : Mapping) (hpad : 0 < μ.pad) (lw ow ww T : Nat) (hT : 0 < T) (hm : μ.bytes.length < 2 ^ ow)
    (L : List (List Byte)) (τ : List Byte) (hlines : Spec.lines μ.bytes = L ++ [τ])
    (hL : ∀ l ∈ L, Spec.ints l = [] ∨ 3 ≤ (Spec.ints l).length) (hτ : (Spec.ints τ).length = 2 ∨
      (Spec.ints τ).length = 3 ∧ (∀ b ∈ τ, Spec.isComment b = false) ∧ ∃ a c, τ = a ++ [c] ∧ Spec.isDigit c = true) :
    (∀ out, LoadEdgeList μ lw ow {} (wUint ww) T out → ∃ c, out = .ok c ∧ c.m = (L.filterMap Spec.edge).length + 1) ∧
    ∀ a b : Nat, ∃ c, LoadEdgeList μ lw ow {} (wUint ww) T (.ok c) ∧ c.m = (L.filterMap Spec.edge).length + 1 ∧
      c.x[(L.filterMap Spec.edge).length]? = some a ∧ c.y[(L.filterMap Spec.edge).length]? = some b := by
  have hnl := lines_noNl μ.bytes
  have hnL : NoNl L := fun l' h' => hnl l' (by rw [hlines]; simp [h'])
  have hnτ : nl ∉ τ := hnl τ (by rw [hlines]; simp)
  have hfile : μ.bytes = text L ++ τ := by
    have := text_lines μ.bytes
    simp only [hlines, List.dropLast_concat, List.getLast_concat] at this
    exact this
  have hcut : CutTail τ := by
    rcases hτ with h | ⟨h, hcom, a, c, hac, hc⟩
    · exact cutTail_two hnτ h
    · exact cutTail_three hnτ h (fun b hb => by rw [← isCom_spec]; exact hcom b hb) ⟨a, c, hac, by rw [← isDigit_spec]; exact hc⟩
  have h2 : ∀ l ∈ L ++ [τ], Spec.ints l = [] ∨ 2 ≤ (Spec.ints l).length := by
    intro l hl
    rcases List.mem_append.mp hl with hl | hl
    · rcases hL l hl with h | h
      · exact .inl h
      · exact .inr (by omega)
    · simp only [List.mem_singleton] at hl; subst hl; exact .inr hcut.two
  have hE : ((L ++ [τ]).filterMap Spec.edge).length = (L.filterMap Spec.edge).length + 1 := by
    have hl2 := hcut.two
    match hi : Spec.ints τ, hl2 with
    | x :: y :: t, _ =>
      have he : Spec.edge τ = some (x, y) := by unfold Spec.edge; rw [hi]
      simp [he]
  have hM : cStart μ.bytes T T = (L.filterMap Spec.edge).length + 1 := by rw [hfile, cStart_lines hnL hnτ h2 hT, hE]
  have hparts := cut_parts (lw := lw) (ww := ww) hnL hnτ hL hcut (T := T)
  rw [← hfile] at hparts
  have hr := endB_file hpad
  have hall := (readEl_w (View.full μ) hr (lw := lw) (cfg := {}) rfl (wUint_any _ ww) hT hm).2 (fun tid h => (hparts tid h).1)
  unfold LoadEdgeList
  rw [fileReader_all]
  refine ⟨fun out ho => ?_, fun a b => ?_⟩
  · obtain ⟨c, e, h, _⟩ := hall out ho
    exact ⟨c, e, by rw [h, hM]⟩
  · have hplan := readElPlan_w (View.full μ) hr (lw := lw) (ow := ow) (cfg := {}) rfl (wUint_any _ ww) hT
    have hrun := readEl_intro hplan ⟨fun _ => a, fun _ => b, fun _ => 0⟩
    obtain ⟨c, e, h, _⟩ := hall _ hrun
    rw [e] at hrun
    refine ⟨c, hrun, by rw [h, hM], ?_⟩
    unfold execPlan at e
    have hmod : cStart μ.bytes T T % 2 ^ ow = cStart μ.bytes T T := Nat.mod_eq_of_lt (by have := cStart_le μ.bytes T T; omega)
    simp only [hmod] at e
    cases hs : runActs stepAct ((List.range T).map (fun tid => (wState lw (fun s => numAt ww (nextIntL s)) (fun s => afterNum (nextIntL s)) μ.bytes T tid).acts)).flatten
        (allocCoo (wUint ww).wgt ⟨fun _ => a, fun _ => b, fun _ => 0⟩ (cStart μ.bytes T T)) with
    | error f => rw [hs] at e; cases e
    | ok s' =>
      rw [hs] at e
      cases e
      have hno : ∀ act ∈ ((List.range T).map (fun tid => (wState lw (fun s => numAt ww (nextIntL s)) (fun s => afterNum (nextIntL s)) μ.bytes T tid).acts)).flatten,
          (∀ v, act ≠ .setX (L.filterMap Spec.edge).length v) ∧ (∀ v, act ≠ .setY (L.filterMap Spec.edge).length v) := by
        intro act hact
        obtain ⟨l, hl, hal⟩ := List.mem_flatten.mp hact
        obtain ⟨tid, ht, rfl⟩ := List.mem_map.mp hl
        have hp := (hparts tid (List.mem_range.mp ht)).2
        rcases List.mem_append.mp hal with hal | hal
        · obtain ⟨j, x, y, w, hj, h⟩ := mem_entActs.mp hal
          have hjl := (List.getElem?_eq_some_iff.mp hj).1
          have hlt : cStart μ.bytes T tid + j < (L.filterMap Spec.edge).length := by
            rcases hp with hp | hp
            · change (wPart lw (uV ww) uS μ.bytes T tid).1[j]? = _ at hj
              rw [hp] at hj; cases hj
            · change j < (wPart lw (uV ww) uS μ.bytes T tid).1.length at hjl
              omega
          constructor
          · rintro v rfl
            rcases h with h | h | h
            · cases h
            · injection h with h _; omega
            · cases h
          · rintro v rfl
            rcases h with h | h | h
            · cases h
            · cases h
            · injection h with h _; omega
        · revert hal
          cases (wPart lw (fun s => numAt ww (nextIntL s)) (fun s => afterNum (nextIntL s)) μ.bytes T tid).2 with
          | none => intro hal; simp [tornAct] at hal
          | some v =>
            intro hal
            simp only [tornAct, List.mem_singleton] at hal
            subst hal
            exact ⟨fun v h => (by cases h), fun v h => (by cases h)⟩
      obtain ⟨k1, k2⟩ := runW_keep (i := (L.filterMap Spec.edge).length) _ _ _ hs (fun v hv => (hno _ hv).1 v rfl) (fun v hv => (hno _ hv).2 v rfl)
      show s'.x[_]? = _ ∧ s'.y[_]? = _
      rw [k1, k2]
      simp [allocCoo, alloc, hM]

/-- `4 5`, whose weight was cut off, and `4 5 6`, which lacks its newline: the second entry is made of anything. -/
example (T : Nat) (hT : 0 < T) (a b : Nat) :
    (∃ c : Coo Nat, LoadEdgeList ⟨str "1 2 3\n4 5", 9⟩ 32 64 {} (wUint 32) T (.ok c) ∧ c.m = 2 ∧ c.x[1]? = some a ∧ c.y[1]? = some b) ∧
    ∃ c : Coo Nat, LoadEdgeList ⟨str "1 2 3\n4 5 6", 9⟩ 32 64 {} (wUint 32) T (.ok c) ∧ c.m = 2 ∧ c.x[1]? = some a ∧ c.y[1]? = some b :=
  ⟨(C88_cut_entry_violated ⟨str "1 2 3\n4 5", 9⟩ (by decide) 32 64 32 T hT (by decide) [str "1 2 3"] (str "4 5") (by decide) (by decide) (.inl (by decide))).2 a b,
   (C88_cut_entry_violated ⟨str "1 2 3\n4 5 6", 9⟩ (by decide) 32 64 32 T hT (by decide) [str "1 2 3"] (str "4 5 6") (by decide) (by decide)
    (.inr ⟨by decide, by decide, str "4 5 ", 54, by decide, by decide⟩)).2 a b⟩

/-- **C88**: of such a file all else is loaded: in every execution the entries of the complete lines are in the first positions, in
the order of the file, with their weights, and the sizes are those of the complete entries. -/
theorem C88_cut_entry_rest (μ : Mapping) (hpad : 0 < μ.pad) (lw ow ww T : Nat) (hT : 0 < T) (hm : μ.bytes.length < 2 ^ ow)
    (L : List (List Byte)) (τ : List Byte) (hlines : Spec.lines μ.bytes = L ++ [τ])
    (hL : ∀ l ∈ L, Spec.ints l = [] ∨ 3 ≤ (Spec.ints l).length) (hτ : (Spec.ints τ).length = 2 ∨
      (Spec.ints τ).length = 3 ∧ (∀ b ∈ τ, Spec.isComment b = false) ∧ ∃ a c, τ = a ++ [c] ∧ Spec.isDigit c = true) :
    ∀ out, LoadEdgeList μ lw ow {} (wUint ww) T out → ∃ c, out = .ok c ∧
      c.m = (L.filterMap Spec.entryU).length + 1 ∧ c.x.length = c.m ∧ c.y.length = c.m ∧ c.w.length = c.m ∧
      c.nrows = (Spec.maxOf ((L.filterMap Spec.entryU).map (fun e => e.1 % 2 ^ lw)) + 1) % 2 ^ lw ∧
      c.ncols = (Spec.maxOf ((L.filterMap Spec.entryU).map (fun e => e.2.1 % 2 ^ lw)) + 1) % 2 ^ lw ∧ c.n = max c.nrows c.ncols ∧
      ∀ (i x y w : Nat), (L.filterMap Spec.entryU)[i]? = some (x, y, w) →
        c.x[i]? = some (x % 2 ^ lw) ∧ c.y[i]? = some (y % 2 ^ lw) ∧ c.w[i]? = some (w % 2 ^ ww) := by
  intro out ho
  have hnl := lines_noNl μ.bytes
  have hnL : NoNl L := fun l' h' => hnl l' (by rw [hlines]; simp [h'])
  have hnτ : nl ∉ τ := hnl τ (by rw [hlines]; simp)
  have hfile : μ.bytes = text L ++ τ := by
    have := text_lines μ.bytes
    simp only [hlines, List.dropLast_concat, List.getLast_concat] at this
    exact this
  have hcut : CutTail τ := by
    rcases hτ with h | ⟨h, hcom, a, c, hac, hc⟩
    · exact cutTail_two hnτ h
    · exact cutTail_three hnτ h (fun b hb => by rw [← isCom_spec]; exact hcom b hb) ⟨a, c, hac, by rw [← isDigit_spec]; exact hc⟩
  obtain ⟨c0, hc0, hm0⟩ := (C88_cut_entry_violated μ hpad lw ow ww T hT hm L τ hlines hL hτ).1 out ho
  have htorn := cut_torn (lw := lw) (ww := ww) hnL hnτ hL hcut T
  rw [← hfile] at htorn
  unfold LoadEdgeList at ho
  rw [fileReader_all] at ho
  obtain ⟨c, h1, h2, h3, h4, h5, h7, h8, h9, h6⟩ := (readEl_stored (View.full μ) (endB_file hpad) (lw := lw) (ow := ow) (cfg := {}) rfl (wUint_any _ ww) hT hm htorn).1 out ho
  have hcc : c = c0 := by rw [hc0] at h1; injection h1 with h1; exact h1.symm
  have hflat := cut_all (lw := lw) (ww := ww) hnL hnτ hL hcut hT
  rw [← hfile] at hflat
  have hmr : ((List.range T).map (wState lw (uV ww) uS μ.bytes T)).foldl (fun a st => max a st.mr) 0 =
      Spec.maxOf ((L.filterMap Spec.entryU).map (fun e => e.1 % 2 ^ lw)) := by
    rw [List.foldl_map]
    simp only [wState, foldl_upd, Nat.zero_max]
    rw [foldl_max_parts (fun t => (wPart lw (uV ww) uS μ.bytes T t).1) (fun e => e.1), Nat.zero_max, hflat, List.map_map]; rfl
  have hmc : ((List.range T).map (wState lw (uV ww) uS μ.bytes T)).foldl (fun a st => max a st.mc) 0 =
      Spec.maxOf ((L.filterMap Spec.entryU).map (fun e => e.2.1 % 2 ^ lw)) := by
    rw [List.foldl_map]
    simp only [wState, foldl_upd, Nat.zero_max]
    rw [foldl_max_parts (fun t => (wPart lw (uV ww) uS μ.bytes T t).1) (fun e => e.2.1), Nat.zero_max, hflat, List.map_map]; rfl
  refine ⟨c, h1, ?_, h3, h4, h5, by rw [h7]; exact congrArg (fun a => (a + 1) % 2 ^ lw) hmr, by rw [h8]; exact congrArg (fun a => (a + 1) % 2 ^ lw) hmc, h9, fun i x y w hi => ?_⟩
  · rw [hcc, hm0, edge_entry hnL hnτ hL hcut (fun l hl => hl)]
  · obtain ⟨t, ht, j, hij, hj⟩ := cut_pos (lw := lw) (ww := ww) hnL hnτ hL hcut hT hi
    rw [← hfile] at hij hj
    rw [hij]
    exact h6 t ht j _ _ _ hj

/-- `1 2 3`, a comment, `9 8 7 6` and the cut `4 5`: two entries as they are, and sizes that know nothing of the third one. -/
example (T : Nat) (hT : 0 < T) : ∀ out, LoadEdgeList ⟨str "1 2 3\n# c\n9 8 7 6\n4 5", 9⟩ 32 64 {} (wUint 32) T out → ∃ c, out = .ok c ∧
    c.m = 3 ∧ c.nrows = 10 ∧ c.ncols = 9 ∧ c.x[1]? = some 9 ∧ c.y[1]? = some 8 ∧ c.w[1]? = some 7 ∧ c.w[0]? = some 3 := by
  intro out ho
  have he : [str "1 2 3", str "# c", str "9 8 7 6"].filterMap Spec.entryU = [(1, 2, 3), (9, 8, 7)] := by decide
  obtain ⟨c, h1, h2, h3, h4, h5, h6, h7, h8, h9⟩ := C88_cut_entry_rest ⟨str "1 2 3\n# c\n9 8 7 6\n4 5", 9⟩ (by decide) 32 64 32 T hT (by decide)
    [str "1 2 3", str "# c", str "9 8 7 6"] (str "4 5") (by decide) (by decide) (.inl (by decide)) out ho
  rw [he] at h2 h6 h7 h9
  exact ⟨c, h1, h2, h6, h7, (h9 1 9 8 7 rfl).1, (h9 1 9 8 7 rfl).2.1, (h9 1 9 8 7 rfl).2.2, (h9 0 1 2 3 rfl).2.2⟩

/-! ## Files without weights -/

/-- **C88 fails**: a file without weights - two numbers in every line with numbers - loaded by one thread with weights: no error; the
number of entries is that of the file, but only half of them are read, each with the first label of the next line as its weight,
and the labels of all other entries are whatever the memory held before. -/
theorem C88_no_weights_violated (μ : Mapping) (hpad : 0 < μ.pad) (lw ow ww : Nat) (hm : μ.bytes.length < 2 ^ ow)
    (h2 : ∀ l ∈ Spec.lines μ.bytes, Spec.ints l = [] ∨ (Spec.ints l).length = 2)
    (hlast : Spec.ints ((Spec.lines μ.bytes).getLast (Spec.lines_ne_nil μ.bytes)) = [])
    (gx gy gw : Nat → Nat) :
    ∃ c : Coo Nat, LoadEdgeList μ lw ow {} (wUint ww) 1 (.ok c) ∧ c.m = (Spec.edges μ.bytes).length ∧
      c.x.length = c.m ∧ c.y.length = c.m ∧ c.w.length = c.m ∧
      (∀ (i : Nat) (x y w : Nat), (Spec.halved (Spec.edges μ.bytes))[i]? = some (x, y, w) →
        c.x[i]? = some (x % 2 ^ lw) ∧ c.y[i]? = some (y % 2 ^ lw) ∧ c.w[i]? = some (w % 2 ^ ww)) ∧
      ∀ i : Nat, (Spec.edges μ.bytes).length / 2 ≤ i → i < (Spec.edges μ.bytes).length → c.x[i]? = some (gx i) ∧ c.y[i]? = some (gy i) := by
  have hnl := lines_noNl μ.bytes
  have hls : NoNl (Spec.lines μ.bytes).dropLast := fun l hl => hnl l (List.dropLast_subset _ hl)
  have hτ := hnl _ (List.getLast_mem (Spec.lines_ne_nil μ.bytes))
  have hsplit := List.dropLast_concat_getLast (Spec.lines_ne_nil μ.bytes)
  have h2' : ∀ l ∈ (Spec.lines μ.bytes).dropLast, Spec.ints l = [] ∨ (Spec.ints l).length = 2 := fun l hl => h2 l (List.dropLast_subset _ hl)
  have hed : Spec.edges μ.bytes = (Spec.lines μ.bytes).dropLast.filterMap Spec.edge := by
    unfold Spec.edges
    conv => lhs; rw [← hsplit]
    rw [List.filterMap_append]
    have : Spec.edge ((Spec.lines μ.bytes).getLast (Spec.lines_ne_nil μ.bytes)) = none := by unfold Spec.edge; rw [hlast]
    simp [this]
  have hσ : firstIntL ((Spec.lines μ.bytes).getLast (Spec.lines_ne_nil μ.bytes)) = [] := (firstIntL_nil_iff _ hτ).mpr hlast
  have hall := text_lines μ.bytes
  have hr := endB_file hpad
  -- one thread has all of the file
  have hreg : regL μ.bytes 1 0 = firstIntL μ.bytes := by
    apply regL_eq
    have h1 : startL μ.bytes 1 (0+1) = [] := by
      unfold startL
      rw [if_neg (by omega), cut_last _ _ (by omega), List.drop_length]; rfl
    rw [h1, List.append_nil]; simp [startL]
  have hc : cPart μ.bytes 1 0 = (Spec.edges μ.bytes).length := by
    unfold cPart
    rw [hreg, hed]
    conv => lhs; rw [hall]
    exact cScan_two hσ _ hls (fun l hl => (h2' l hl).imp id (fun h => by omega)) _ (Nat.le_refl _)
  obtain ⟨w1, w2⟩ := wScan_two (lw := lw) (ww := ww) hσ _ _ (Nat.le_refl _) hls h2' _ (Nat.le_refl _)
  rw [← hall, ← hed, ← hreg] at w1 w2
  have w1 : (wPart lw (uV ww) uS μ.bytes 1 0).1 = _ := w1
  have w2 : (wPart lw (uV ww) uS μ.bytes 1 0).2 = none ∨ (wPart lw (uV ww) uS μ.bytes 1 0).2 = some 0 ∧ _ := w2
  have hm1 : cStart μ.bytes 1 1 = (Spec.edges μ.bytes).length := by simp [cStart, hc]
  have hmod : cStart μ.bytes 1 1 % 2 ^ ow = (Spec.edges μ.bytes).length := by
    rw [Nat.mod_eq_of_lt (by have := cStart_le μ.bytes 1 1; omega), hm1]
  have hplan := readElPlan_w (View.full μ) hr (lw := lw) (ow := ow) (cfg := {}) rfl (wUint_any _ ww) (T := 1) (by omega)
  have hlen : (wPart lw (uV ww) uS μ.bytes 1 0).1.length = (Spec.edges μ.bytes).length / 2 := by rw [w1, List.length_map, halved_length]
  have hrun := readEl_intro hplan ⟨gx, gy, gw⟩
  unfold LoadEdgeList
  rw [fileReader_all]
  have hact : ((List.range 1).map (fun tid => (wState lw (fun s => numAt ww (nextIntL s)) (fun s => afterNum (nextIntL s)) μ.bytes 1 tid).acts)).flatten =
      entActs 0 (wPart lw (uV ww) uS μ.bytes 1 0).1 ++ tornAct ((Spec.edges μ.bytes).length / 2) (wPart lw (uV ww) uS μ.bytes 1 0).2 := by
    have h0 : cStart μ.bytes 1 0 = 0 := rfl
    simp only [List.range_one, List.map_cons, List.map_nil, List.flatten_cons, List.flatten_nil, List.append_nil, wState, h0, Nat.zero_add]
    rw [← hlen]
  obtain ⟨s', g1, g2, g3, g4, g5, g6⟩ := run_entActs (wPart lw (uV ww) uS μ.bytes 1 0).1 0
    (allocCoo true ⟨gx, gy, gw⟩ (Spec.edges μ.bytes).length) (by simp [allocCoo, alloc, hlen]; omega) (by simp [allocCoo, alloc, hlen]; omega)
    (by simp [allocCoo, alloc, hlen]; omega)
  simp only [allocCoo, alloc, List.length_map, List.length_range, if_true] at g2 g3 g4
  have hrest : ∃ w', runActs stepAct (entActs 0 (wPart lw (uV ww) uS μ.bytes 1 0).1 ++ tornAct ((Spec.edges μ.bytes).length / 2) (wPart lw (uV ww) uS μ.bytes 1 0).2)
      (allocCoo true ⟨gx, gy, gw⟩ (Spec.edges μ.bytes).length) = .ok ⟨s'.x, s'.y, w'⟩ ∧ w'.length = (Spec.edges μ.bytes).length ∧
        ∀ i, i < (Spec.edges μ.bytes).length / 2 → w'[i]? = s'.w[i]? := by
    rw [runActs_append, g1, ok_bind]
    rcases w2 with h | ⟨h, hodd⟩
    · rw [h]; exact ⟨s'.w, rfl, g4, fun i _ => rfl⟩
    · rw [h]
      refine ⟨s'.w.set ((Spec.edges μ.bytes).length / 2) 0, ?_, by rw [List.length_set]; exact g4, fun i hi => List.getElem?_set_ne (by omega)⟩
      simp only [tornAct, runActs, stepAct]
      rw [store_ok (show (Spec.edges μ.bytes).length / 2 < s'.w.length by omega)]; rfl
  obtain ⟨w', r1, r2, r3⟩ := hrest
  unfold execPlan at hrun
  simp only [hmod, hact, show (wUint ww).wgt = true from rfl, r1, ok_bind] at hrun
  refine ⟨_, hrun, rfl, g2, g3, r2, fun i x y w hi => ?_, fun i hi1 hi2 => ?_⟩
  · have hi' := (List.getElem?_eq_some_iff.mp hi).1
    rw [halved_length] at hi'
    have := g5 i (x % 2 ^ lw) (y % 2 ^ lw) (w % 2 ^ ww) (by rw [w1, List.getElem?_map, hi]; rfl)
    rw [Nat.zero_add] at this
    show s'.x[i]? = _ ∧ s'.y[i]? = _ ∧ w'[i]? = _
    rw [r3 i hi']
    exact this
  · obtain ⟨k1, k2, _⟩ := g6 i (.inr (by rw [hlen]; omega))
    show s'.x[i]? = _ ∧ s'.y[i]? = _
    rw [k1, k2]
    simp [allocCoo, alloc, hi2]

/-- Of `1 2`, `3 4`, `5 6` only `1 2` is read, with the weight 3; the other entries are anything. -/
example (a b : Nat) : ∃ c : Coo Nat, LoadEdgeList ⟨str "1 2\n3 4\n5 6\n", 9⟩ 32 64 {} (wUint 8) 1 (.ok c) ∧ c.m = 3 ∧
    (c.x[0]? = some 1 ∧ c.y[0]? = some 2 ∧ c.w[0]? = some 3) ∧ (c.x[1]? = some a ∧ c.y[1]? = some b) ∧ c.x[2]? = some a := by
  obtain ⟨c, h1, h2, _, _, _, h3, h4⟩ := C88_no_weights_violated ⟨str "1 2\n3 4\n5 6\n", 9⟩ (by decide) 32 64 8 (by decide) (by decide) (by decide)
    (fun _ => a) (fun _ => b) (fun _ => 0)
  have he : Spec.edges (str "1 2\n3 4\n5 6\n") = [(1, 2), (3, 4), (5, 6)] := by decide
  simp only [he] at h2 h3 h4
  exact ⟨c, h1, h2, h3 0 1 2 3 (by decide), h4 1 (by decide) (by decide), (h4 2 (by decide) (by decide)).1⟩

end Pigo
