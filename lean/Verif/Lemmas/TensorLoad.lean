import Verif.Lemmas.TensorOrder
import Verif.Lemmas.WriteTensor

/-!
# Loading a whole tensor file; the text of a tensor; maxima
-/

namespace Pigo

variable {W : Type}

theorem firstData_split {file l : List Byte} (h : Spec.firstData file = some l) (hlast : Spec.ints ((Spec.lines file).getLast (Spec.lines_ne_nil file)) = []) :
    ∃ A B, (Spec.lines file).dropLast = A ++ l :: B ∧ (∀ l ∈ A, Spec.ints l = []) ∧ Spec.ints l ≠ [] := by
  unfold Spec.firstData at h
  rw [← List.dropLast_concat_getLast (Spec.lines_ne_nil file), List.find?_append] at h
  have h2 : List.find? (fun l => decide (Spec.ints l ≠ [])) [(Spec.lines file).getLast (Spec.lines_ne_nil file)] = none := by
    simp [hlast]
  rw [h2, Option.or_none] at h
  obtain ⟨hp, A, B, he, hA⟩ := List.find?_eq_some_iff_append.mp h
  refine ⟨A, B, he, ?_, by simpa using hp⟩
  intro l hl
  simpa using hA l hl

theorem firstData_none {file : List Byte} (h : Spec.firstData file = none) : ∀ l ∈ Spec.lines file, Spec.ints l = [] := by
  intro l hl
  have := List.find?_eq_none.mp h l hl
  simpa using this

theorem tensorOrder_file {μ : Mapping} (hpad : 0 < μ.pad) {ow : Nat} {wgt : Bool} {l : List Byte} (h : Spec.firstData μ.bytes = some l)
    (hlast : Spec.ints ((Spec.lines μ.bytes).getLast (Spec.lines_ne_nil μ.bytes)) = []) (hp : Spec.PlainLine l) (hw : (Spec.words l).length < 2 ^ ow) :
    tensorOrder μ ow wgt (fileReader μ) = .ok ((Spec.words l).length - if wgt then 1 else 0) := by
  obtain ⟨A, B, he, hA, hl⟩ := firstData_split h hlast
  have st := elState_file hpad hlast
  rw [fileReader_rd, he]
  rw [he] at st
  exact tensorOrder_eq st.rdb st.nonl st.view hA hl hp hw

theorem tensorOrder_blank {μ : Mapping} (hpad : 0 < μ.pad) {ow : Nat} {wgt : Bool} (h : ∀ l ∈ Spec.lines μ.bytes, Spec.ints l = []) :
    tensorOrder μ ow wgt (fileReader μ) = .ok (if wgt then 0 else 1 % 2 ^ ow) := by
  have hlast := h _ (List.getLast_mem (Spec.lines_ne_nil μ.bytes))
  have st := elState_file hpad hlast
  have hfirst : firstIntL (text (Spec.lines μ.bytes).dropLast ++ (Spec.lines μ.bytes).getLast (Spec.lines_ne_nil μ.bytes)) = [] := by
    rw [firstInt_lines st.nonl (fun l hl => (firstIntL_nil_iff l (st.nonl l hl)).mpr (h l (List.dropLast_subset _ hl)))]
    exact (firstIntL_nil_iff _ (lines_noNl _ _ (List.getLast_mem _))).mpr hlast
  rw [fileReader_rd]
  unfold tensorOrder
  rw [moveToFirstInt_eq st.view st.rdb, ok_bind, hfirst]
  have : countSpaces μ (rd μ.bytes.length []) = .ok (0, rd μ.bytes.length []) := by
    unfold countSpaces
    simp [rd, countSpacesN]
  rw [this, ok_bind]
  cases wgt <;> simp

noncomputable def entOfT (entry : List Byte → Option (List Nat × W)) (l : List Byte) : Option (List Nat × W) := if Spec.ints l = [] then none else entry l

/-- Every execution of `Tensor::read_el_` on a well-formed file. -/
theorem readTensorEl_file {μ : Mapping} (hpad : 0 < μ.pad) {lw ow k : Nat} {wk : WKind W} {entry : Nat → List Byte → Option (List Nat × W)} {wp : List Nat × W → Prop}
    (hf : TFormat wk entry wp) (hk : 0 < k) (hok : Spec.TensorOk wk.wgt entry k μ.bytes) (hwp : ∀ en ∈ Spec.entries (entry k) μ.bytes, wp en)
    (hlab : ∀ en ∈ Spec.entries (entry k) μ.bytes, ∀ x ∈ en.1, x < 2 ^ lw) {T : Nat} (hT : 0 < T) (hkw : k + 1 < 2 ^ ow)
    (hkm : k * (Spec.entries (entry k) μ.bytes).length < 2 ^ ow) :
    (readTensorEl μ lw ow wk T (fileReader μ)).All (fun t => HoldsT t wk.wgt (Spec.entries (entry k) μ.bytes) ∧ (Spec.entries (entry k) μ.bytes ≠ [] → t.order = k)) := by
  have hlast := hok.good.last
  have st := elState_file hpad hlast
  have he : (Spec.lines μ.bytes).dropLast.filterMap (entOfT (entry k)) = Spec.entries (entry k) μ.bytes := entries_dropLast hlast
  have hlen : ∀ en ∈ Spec.entries (entry k) μ.bytes, en.1.length = k := by
    intro en hen
    unfold Spec.entries at hen
    obtain ⟨l, hl, hle⟩ := List.mem_filterMap.mp hen
    split at hle
    · cases hle
    · have hn := lines_noNl μ.bytes l hl
      refine (hf.law lw hk hn hle (hwp en ?_)).2
      unfold Spec.entries
      exact List.mem_filterMap.mpr ⟨l, hl, by rename_i hi; rw [if_neg hi]; exact hle⟩
  -- the order detected
  have key : ∀ k', (∀ l ∈ (Spec.lines μ.bytes).dropLast, TEntOk lw wk k' (entOfT (entry k)) l) → tensorOrder μ ow wk.wgt (fileReader μ) = .ok k' →
      (Spec.entries (entry k) μ.bytes ≠ [] → k' = k) → k' * (Spec.entries (entry k) μ.bytes).length < 2 ^ ow →
      (readTensorEl μ lw ow wk T (fileReader μ)).All (fun t => HoldsT t wk.wgt (Spec.entries (entry k) μ.bytes) ∧ (Spec.entries (entry k) μ.bytes ≠ [] → t.order = k)) := by
    intro k' hls ho hkk hkm'
    rw [fileReader_rd] at ho ⊢
    have hm : ((Spec.lines μ.bytes).dropLast.filterMap (entOfT (entry k))).length < 2 ^ ow := by
      rw [he]
      have : 1 * (Spec.entries (entry k) μ.bytes).length ≤ k * (Spec.entries (entry k) μ.bytes).length := Nat.mul_le_mul_right _ hk
      omega
    refine (readTensorEl_all (ow := ow) hT st hls ho hm (by rw [he]; exact hkm')).mono (fun t ht => ?_)
    rw [he] at ht
    subst ht
    refine ⟨⟨rfl, ?_, ?_, ?_⟩, hkk⟩
    · intro en hen
      rw [hlen en hen]
      exact (hkk (List.ne_nil_of_mem hen)).symm
    · simp only
      rw [List.flatMap_def, List.flatMap_def]
      congr 1
      refine List.map_congr_left (fun en hen => ?_)
      conv => rhs; rw [← List.map_id en.1]
      exact List.map_congr_left (fun x hx => Nat.mod_eq_of_lt (hlab en hen x hx))
    · intro hg
      simp only [hg, if_true]
  have hTEnt : ∀ l ∈ (Spec.lines μ.bytes).dropLast, TEntOk lw wk k (entOfT (entry k)) l := by
    intro l hl
    have hl' := List.dropLast_subset _ hl
    have hn := lines_noNl μ.bytes l hl'
    refine ⟨hn, ?_⟩
    unfold entOfT
    by_cases hi : Spec.ints l = []
    · rw [if_pos hi]; exact (firstIntL_nil_iff l hn).mpr hi
    · rw [if_neg hi]
      rcases hok.good.line l hl' with h | h
      · exact absurd h hi
      · obtain ⟨en, hen⟩ := Option.isSome_iff_exists.mp h
        rw [hen]
        refine hf.law lw hk hn hen (hwp en ?_)
        unfold Spec.entries
        exact List.mem_filterMap.mpr ⟨l, hl', by rw [if_neg hi, hen]⟩
  cases hfd : Spec.firstData μ.bytes with
  | some l =>
    obtain ⟨hp, hw⟩ := hok.first l hfd
    refine key k hTEnt ?_ (fun _ => rfl) hkm
    rw [tensorOrder_file hpad hfd hlast hp (by rw [hw]; split <;> omega), hw]
    congr 1; split <;> omega
  | none =>
    have hbl := firstData_none hfd
    have hnil : Spec.entries (entry k) μ.bytes = [] := by
      unfold Spec.entries
      rw [List.filterMap_eq_nil_iff]
      intro l hl
      rw [if_pos (hbl l hl)]
    refine key _ ?_ (tensorOrder_blank hpad hbl) (fun h => absurd hnil h) (by rw [hnil, List.length_nil, Nat.mul_zero]; omega)
    intro l hl
    have hl' := List.dropLast_subset _ hl
    have hn := lines_noNl μ.bytes l hl'
    refine ⟨hn, ?_⟩
    unfold entOfT
    rw [if_pos (hbl l hl')]; exact (firstIntL_nil_iff l hn).mpr (hbl l hl')

/-! ## The text of a tensor -/

/-- A line whose comment-free part ends with a non-blank has no trailing blanks. -/
theorem plainLine_of {l : List Byte} {a : List Byte} {b : Byte} (h : Spec.stripComment l = a ++ [b]) (hb : Spec.isBlank b = false)
    (hn : ∀ t ∈ Spec.words l, Spec.plainNumber t) : Spec.PlainLine l := by
  refine ⟨hn, ?_⟩
  intro s hs hbl
  rw [h] at hs
  rcases List.eq_nil_or_concat s with rfl | ⟨s', c, rfl⟩
  · simp
  · exfalso
    obtain ⟨u, hu⟩ := hs
    rw [List.concat_eq_append, ← List.append_assoc] at hu
    have := List.append_inj_right' hu (by rfl)
    injection this with this _
    have h2 := hbl c (by simp)
    rw [this, hb] at h2
    cases h2

/-- The words of a tensor entry. -/
def tensorWords (wgt : Bool) (txt : W → List Byte) (e : List Nat × W) : List (List Byte) := e.1.map Spec.showNat ++ if wgt then [txt e.2] else []

theorem tensorLine_unwords (wgt : Bool) (txt : W → List Byte) (e : List Nat × W) : Spec.tensorLine wgt txt e = unwords (tensorWords wgt txt e) ++ [nl] := rfl

theorem tensorText_text (wgt : Bool) (txt : W → List Byte) (es : List (List Nat × W)) :
    es.flatMap (fun e => Spec.tensorLine wgt txt e) = text (es.map (fun e => unwords (tensorWords wgt txt e))) := by
  unfold text
  rw [List.map_map, ← List.flatMap_def]
  rfl

theorem plain_digits {t : List Byte} (hne : t ≠ []) (h : ∀ b ∈ t, isDigit b = true) : Spec.plainNumber t := by
  obtain ⟨a, t', rfl⟩ := List.exists_cons_of_ne_nil hne
  have ha := h a (by simp)
  unfold Spec.plainNumber
  simp only [isDigit_spec, List.dropWhile_cons, ha, Bool.not_true, Bool.false_eq_true, if_false]
  exact ⟨by simp, fun b hb => .inl (h b hb)⟩

theorem plain_showNat (n : Nat) : Spec.plainNumber (Spec.showNat n) := plain_digits (showNat_ne_nil n) (showNat_digits n)

theorem plain_showInt (z : Int) : Spec.plainNumber (Spec.showInt z) := by
  unfold Spec.showInt
  split
  · have h := plain_showNat z.natAbs
    unfold Spec.plainNumber at h ⊢
    have : (str "-" ++ Spec.showNat z.natAbs).dropWhile (fun b => !Spec.isDigit b) = (Spec.showNat z.natAbs).dropWhile (fun b => !Spec.isDigit b) := by
      rw [show str "-" = [45] by decide, List.singleton_append, List.dropWhile_cons]
      rw [if_pos (by decide)]
    rw [this]; exact h
  · exact plain_showNat _

theorem unwords_snoc : ∀ (ws : List (List Byte)) (w : List Byte), ∃ a, unwords (ws ++ [w]) = a ++ w
  | [], w => ⟨[], by rw [List.nil_append, unwords_one]; rfl⟩
  | [v], w => ⟨v ++ [32], by rw [List.singleton_append, unwords_cons, unwords_one]; simp⟩
  | v :: v' :: ws, w => by
    obtain ⟨a, ha⟩ := unwords_snoc (v' :: ws) w
    refine ⟨v ++ 32 :: a, ?_⟩
    rw [List.cons_append, List.cons_append, unwords_cons, ← List.cons_append, ha]; simp

/-- The words of the text of a tensor form a well-formed tensor file with these entries. -/
theorem tensorText_ok {wgt : Bool} {txt : W → List Byte} {es : List (List Nat × W)} {k : Nat} (hk : 0 < k) (hlen : ∀ e ∈ es, e.1.length = k)
    (hw : ∀ e ∈ es, wgt = true → Word (txt e.2) ∧ Spec.plainNumber (txt e.2))
    {entry : Nat → List Byte → Option (List Nat × W)} (he : ∀ e ∈ es, entry k (unwords (tensorWords wgt txt e)) = some e) :
    Spec.TensorOk wgt entry k (es.flatMap (fun e => Spec.tensorLine wgt txt e)) ∧ Spec.entries (entry k) (es.flatMap (fun e => Spec.tensorLine wgt txt e)) = es := by
  have hwords : ∀ e ∈ es, ∀ w ∈ tensorWords wgt txt e, Word w ∧ Spec.plainNumber w := by
    intro e he' w hw'
    unfold tensorWords at hw'
    rcases List.mem_append.mp hw' with h | h
    · obtain ⟨n, _, rfl⟩ := List.mem_map.mp h
      exact ⟨showNat_word _, plain_showNat _⟩
    · split at h
      · rename_i hg
        rw [List.mem_singleton] at h; subst h
        exact hw e he' hg
      · simp at h
  have hl : Spec.lines (es.flatMap (fun e => Spec.tensorLine wgt txt e)) = es.map (fun e => unwords (tensorWords wgt txt e)) ++ [[]] := by
    rw [tensorText_text]
    have := lines_text (ls := es.map (fun e => unwords (tensorWords wgt txt e))) (tail := []) (by
      intro l hl
      obtain ⟨e, he', rfl⟩ := List.mem_map.mp hl
      exact unwords_noNl (fun w hw' => (hwords e he' w hw').1)) (by simp)
    rwa [List.append_nil] at this
  have hint : ∀ e ∈ es, Spec.ints (unwords (tensorWords wgt txt e)) ≠ [] := by
    intro e he'
    have h1 := hlen e he'
    have h2 := hwords e he'
    obtain ⟨xs, w⟩ := e
    simp only at h1
    cases xs with
    | nil => simp at h1; omega
    | cons x xs =>
      exact ints_first x (xs.map Spec.showNat ++ if wgt then [txt w] else []) (fun v hv => (h2 v (List.mem_cons_of_mem _ hv)).1)
  have hlast : Spec.ints [] = [] := by simp [Spec.ints, Spec.stripComment, Spec.digitRuns]
  refine ⟨⟨⟨?_, ?_⟩, ?_⟩, ?_⟩
  · intro l hl'
    rw [hl] at hl'
    rcases List.mem_append.mp hl' with h | h
    · obtain ⟨e, he', rfl⟩ := List.mem_map.mp h
      exact .inr (by rw [he e he']; rfl)
    · rw [List.mem_singleton] at h; subst h; exact .inl hlast
  · have : ∀ (L : List (List Byte)) (h : L ≠ []), L = es.map (fun e => unwords (tensorWords wgt txt e)) ++ [[]] → Spec.ints (L.getLast h) = [] := by
      rintro L h rfl
      rw [List.getLast_append_right (by simp)]
      simpa using hlast
    exact this _ _ hl
  · intro l hfd
    have hmem : l ∈ Spec.lines (es.flatMap (fun e => Spec.tensorLine wgt txt e)) := List.mem_of_find?_eq_some hfd
    have hne : Spec.ints l ≠ [] := by simpa using List.find?_some hfd
    rw [hl] at hmem
    rcases List.mem_append.mp hmem with h | h
    · obtain ⟨e, he', rfl⟩ := List.mem_map.mp h
      have hww : ∀ w ∈ tensorWords wgt txt e, Word w := fun w hw' => (hwords e he' w hw').1
      have hwd : Spec.words (unwords (tensorWords wgt txt e)) = tensorWords wgt txt e := by
        unfold Spec.words
        rw [unwords_strip hww, tokens_unwords hww]
      have hl1 : (tensorWords wgt txt e).length = k + if wgt then 1 else 0 := by
        unfold tensorWords
        rw [List.length_append, List.length_map, hlen e he']
        cases wgt <;> rfl
      refine ⟨?_, by rw [hwd, hl1]⟩
      rcases List.eq_nil_or_concat (tensorWords wgt txt e) with h0 | ⟨ws, w, h0⟩
      · rw [h0] at hl1; simp at hl1; omega
      · obtain ⟨a, ha⟩ := unwords_snoc ws w
        have hwW := hww w (by rw [h0]; simp)
        rcases List.eq_nil_or_concat w with rfl | ⟨w', b, rfl⟩
        · exact absurd rfl hwW.ne
        · refine plainLine_of (a := a ++ w') (b := b) ?_ (hwW.chars b (by simp)).1 ?_
          · rw [unwords_strip hww, h0, List.concat_eq_append, ha]; simp
          · rw [hwd]; exact fun t ht => (hwords e he' t ht).2
    · rw [List.mem_singleton] at h; subst h; exact absurd hlast hne
  · unfold Spec.entries
    rw [hl, List.filterMap_append, List.filterMap_map]
    have e1 : es.filterMap ((fun l => if Spec.ints l = [] then none else entry k l) ∘ fun e => unwords (tensorWords wgt txt e)) = es.filterMap some := by
      apply filterMap_congr''
      intro e he'
      simp only [Function.comp_apply]
      rw [if_neg (hint e he'), he e he']
    rw [e1, List.filterMap_some]
    simp [hlast]

theorem coords_words (xs : List Nat) (r : List (List Byte)) : Spec.coords xs.length (xs.map Spec.showNat ++ r) = some xs := by
  have h1 : (xs.map Spec.showNat ++ r).take xs.length = xs.map Spec.showNat := by
    rw [List.take_left' (by simp)]
  unfold Spec.coords
  rw [h1, if_pos]
  · rw [List.map_map]
    congr 1
    conv => rhs; rw [← List.map_id xs]
    exact List.map_congr_left (fun x _ => decimal_showNat x)
  · refine ⟨by simp, ?_⟩
    intro t ht
    obtain ⟨n, _, rfl⟩ := List.mem_map.mp ht
    exact showNat_allDigit n

theorem words_unwords {ws : List (List Byte)} (h : ∀ w ∈ ws, Word w) : Spec.words (unwords ws) = ws := by
  unfold Spec.words
  rw [unwords_strip h, tokens_unwords h]

theorem tensorEntry0_words (txt : Unit → List Byte) (e : List Nat × Unit) : Spec.tensorEntry0 e.1.length (unwords (tensorWords false txt e)) = some e := by
  have hw : ∀ w ∈ tensorWords false txt e, Word w := by
    intro w hw
    simp only [tensorWords, Bool.false_eq_true, if_false, List.append_nil] at hw
    obtain ⟨n, _, rfl⟩ := List.mem_map.mp hw
    exact showNat_word n
  unfold Spec.tensorEntry0
  rw [words_unwords hw]
  have := coords_words e.1 []
  simp only [tensorWords, Bool.false_eq_true, if_false]
  rw [this]; rfl

theorem tensorEntryW_words {parse : List Byte → Option W} {txt : W → List Byte} (e : List Nat × W) (hw : Word (txt e.2)) (hp : parse (txt e.2) = some e.2) :
    Spec.tensorEntryW parse e.1.length (unwords (tensorWords true txt e)) = some e := by
  have hw' : ∀ w ∈ tensorWords true txt e, Word w := by
    intro w hw'
    simp only [tensorWords, if_true] at hw'
    rcases List.mem_append.mp hw' with h | h
    · obtain ⟨n, _, rfl⟩ := List.mem_map.mp h
      exact showNat_word n
    · rw [List.mem_singleton] at h; rw [h]; exact hw
  unfold Spec.tensorEntryW
  rw [words_unwords hw']
  simp only [tensorWords, if_true]
  rw [coords_words, List.getElem?_append_right (by simp)]
  simp [hp]

end Pigo
