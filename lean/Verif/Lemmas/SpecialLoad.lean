import Verif.Lemmas.SpecialText
import Verif.Spec.Special

/-!
# Loading files of lines whose weights are literals or words
-/

namespace Pigo

variable {V : Type} (ops : FpOps V) {word : Nat → Prop} [DecidablePred word] {q lab : Nat → V} {txt : Nat → List Byte}

/-- The entries of thread `tid`. -/
def blk (txt : Nat → List Byte) (es : List (Nat × Nat × Nat)) (T tid : Nat) : List (Nat × Nat × Nat) :=
  (es.drop (lineOf (text (es.map (wl txt))) T tid)).take (lineOf (text (es.map (wl txt))) T (tid+1) - lineOf (text (es.map (wl txt))) T tid)

theorem wl_noNl {e : Nat × Nat × Nat} (h : nl ∉ txt e.2.2) : nl ∉ wl txt e := by
  have nl32 : nl ≠ (32 : Byte) := by decide
  unfold wl
  simp only [List.mem_append, List.mem_cons, not_or]
  exact ⟨showNat_noNl _, nl32, showNat_noNl _, nl32, h⟩

theorem noNl_lines {es : List (Nat × Nat × Nat)} (h : ∀ e ∈ es, nl ∉ txt e.2.2) : NoNl (es.map (wl txt)) := by
  intro l hl
  obtain ⟨e, he, rfl⟩ := List.mem_map.mp hl
  exact wl_noNl (h e he)

theorem region_blk {es : List (Nat × Nat × Nat)} (h : ∀ e ∈ es, nl ∉ txt e.2.2) (T tid : Nat) :
    regL (text (es.map (wl txt))) T tid = text ((blk txt es T tid).map (wl txt)) := by
  have hst : ∀ t, startL (text (es.map (wl txt))) T t = text ((es.drop (lineOf (text (es.map (wl txt))) T t)).map (wl txt)) := by
    intro t
    have := startL_tail (noNl_lines h) (τ := []) (by simp) T t
    simp only [List.append_nil] at this
    rw [this]
    unfold startAt
    split
    · rw [List.append_nil, ← List.map_drop, firstInt_atNum (atNum_lines _)]
    · rename_i hj
      rw [List.drop_of_length_le (by rw [List.length_map] at hj; omega)]; rfl
  apply regL_eq
  rw [hst, hst, ← text_append, ← List.map_append]
  congr 2
  unfold blk
  have hJ := lineOf_mono (text (es.map (wl txt))) T tid
  generalize lineOf (text (es.map (wl txt))) T tid = J at *
  generalize lineOf (text (es.map (wl txt))) T (tid+1) = J' at *
  conv => lhs; rw [← List.take_append_drop (J' - J) (es.drop J)]
  rw [List.drop_drop]; congr 2; omega

theorem blk_take (es : List (Nat × Nat × Nat)) (T : Nat) : ∀ t, ((List.range t).map (blk txt es T)).flatten = es.take (lineOf (text (es.map (wl txt))) T t)
  | 0 => by simp [lineOf]
  | t+1 => by
    rw [List.range_succ, List.map_append, List.flatten_append, blk_take es T t]
    simp only [List.map_cons, List.map_nil, List.flatten_cons, List.flatten_nil, List.append_nil]
    have h := lineOf_mono (text (es.map (wl txt))) T t
    unfold blk
    conv => rhs; rw [show lineOf (text (es.map (wl txt))) T (t+1) = lineOf (text (es.map (wl txt))) T t + (lineOf (text (es.map (wl txt))) T (t+1) - lineOf (text (es.map (wl txt))) T t) by omega]
    rw [List.take_add]

theorem blk_all {es : List (Nat × Nat × Nat)} (h : ∀ e ∈ es, nl ∉ txt e.2.2) {T : Nat} (hT : 0 < T) : ((List.range T).map (blk txt es T)).flatten = es := by
  rw [blk_take]
  apply List.take_of_length_le
  unfold lineOf
  have := count_text (es.map (wl txt)) [] (noNl_lines h)
  simp only [List.append_nil, List.length_map] at this
  rw [if_neg (by omega), cut_last _ _ hT, List.take_length, this]
  simp

/-- A position of a concatenation. -/
theorem flatMap_pos {α β : Type} (f : α → List β) : ∀ (l : List α) (i : Nat), i < (l.flatMap f).length →
    ∃ t a j, l[t]? = some a ∧ j < (f a).length ∧ i = ((l.take t).flatMap f).length + j ∧ (l.flatMap f)[i]? = (f a)[j]?
  | [], i, h => by simp at h
  | a :: l, i, h => by
    rw [List.flatMap_cons] at h ⊢
    by_cases hi : i < (f a).length
    · exact ⟨0, a, i, rfl, hi, by simp, by rw [List.getElem?_append_left hi]⟩
    · rw [List.length_append] at h
      obtain ⟨t, b, j, h1, h2, h3, h4⟩ := flatMap_pos f l (i - (f a).length) (by omega)
      refine ⟨t + 1, b, j, h1, h2, ?_, ?_⟩
      · rw [List.take_succ_cons, List.flatMap_cons, List.length_append]; omega
      · rw [List.getElem?_append_right (by omega), h4]

theorem foldl_upd {α : Type} (f : α → Nat) : ∀ (l : List α) (a : Nat), l.foldl (fun a t => upd a (f t)) a = max a (Spec.maxOf (l.map f))
  | [], a => by simp [Spec.maxOf]
  | x :: l, a => by
    rw [List.foldl_cons, foldl_upd f l, List.map_cons, maxOf_cons]
    unfold upd
    split <;> omega

theorem foldl_max_parts {α β : Type} (g : β → List α) (f : α → Nat) : ∀ (l : List β) (a : Nat),
    l.foldl (fun a b => max a (Spec.maxOf ((g b).map f))) a = max a (Spec.maxOf ((l.flatMap g).map f))
  | [], a => by simp [Spec.maxOf]
  | x :: l, a => by
    rw [List.foldl_cons, foldl_max_parts g f l, List.flatMap_cons, List.map_append, maxOf_append]
    omega

theorem special_load {μ : Mapping} (hpad : 0 < μ.pad) {es : List (Nat × Nat × Nat)} (hμ : μ.bytes = text (es.map (wl txt))) {lw ow T : Nat} (hT : 0 < T)
    (hfit : μ.bytes.length < 2 ^ ow)
    (hes : ∀ e ∈ es, e.1 < 2 ^ lw ∧ e.2.1 < 2 ^ lw ∧ fpDigits ops (Spec.showNat e.1) = lab e.1 ∧ WgtText ops word q txt e.2.2) :
    ∃ blocks, blocks.length = T ∧ blocks.flatten = es ∧
    (∀ out, LoadEdgeList μ lw ow {} (wFp ops) T out → ∃ c, out = .ok c ∧ c.m = es.length ∧ c.x.length = c.m ∧ c.y.length = c.m ∧ c.w.length = c.m ∧
      c.nrows = (Spec.maxOf ((blocks.flatMap (rer word q lab)).map (fun e => e.1)) + 1) % 2 ^ lw ∧
      c.ncols = (Spec.maxOf ((blocks.flatMap (rer word q lab)).map (fun e => e.2.1)) + 1) % 2 ^ lw ∧ c.n = max c.nrows c.ncols ∧
      (∀ (i x y : Nat) (w : V), (Spec.slots (rer word q lab) blocks)[i]? = some (some (x, y, w)) → c.x[i]? = some x ∧ c.y[i]? = some y ∧ c.w[i]? = some w)) ∧
    ∀ gx gy : Nat → Nat, ∃ c, LoadEdgeList μ lw ow {} (wFp ops) T (.ok c) ∧
      ∀ i : Nat, (Spec.slots (rer word q lab) blocks)[i]? = some none → c.x[i]? = some (gx i) ∧ c.y[i]? = some (gy i) := by
  have hnl : ∀ e ∈ es, nl ∉ txt e.2.2 := fun e he => (hes e he).2.2.2.1
  have hb : ∀ t, ∀ e ∈ blk txt es T t, e.1 < 2 ^ lw ∧ e.2.1 < 2 ^ lw ∧ fpDigits ops (Spec.showNat e.1) = lab e.1 ∧ WgtText ops word q txt e.2.2 :=
    fun t e he => hes e (List.mem_of_mem_drop (List.mem_of_mem_take he))
  have hscan := fun t => scan_block ops (lw := lw) (word := word) (q := q) (lab := lab) (txt := txt) _ (blk txt es T t) (hb t) (Nat.le_refl _)
  have hc : ∀ t, cPart μ.bytes T t = (blk txt es T t).length := by
    intro t; unfold cPart; rw [hμ, region_blk hnl]; exact (hscan t).1
  have hw1 : ∀ t, (wPart lw (fpV ops) (fpR ops) μ.bytes T t).1 = rer word q lab (blk txt es T t) := by
    intro t; unfold wPart; rw [hμ, region_blk hnl]; exact (hscan t).2.1
  have hw2 : TornIn lw (fpV ops) (fpR ops) μ.bytes T := by
    intro t _
    rw [hc, hw1]
    unfold wPart; rw [hμ, region_blk hnl]; exact (hscan t).2.2
  have hstart : ∀ t, cStart μ.bytes T t = (((List.range t).map (blk txt es T)).flatten).length := by
    intro t
    unfold cStart
    rw [show cPart μ.bytes T = fun t => (blk txt es T t).length from funext hc, sum_lengths]
  have hall := blk_all (txt := txt) hnl hT
  obtain ⟨r1, r2⟩ := readEl_stored (View.full μ) (endB_file hpad) (lw := lw) (ow := ow) (cfg := {}) rfl (wFp_any ops _) hT hfit hw2
  -- positions
  have hpos : ∀ (i : Nat) (o : Option (Nat × Nat × V)), (Spec.slots (rer word q lab) ((List.range T).map (blk txt es T)))[i]? = some o → ∃ t < T, ∃ j, j < cPart μ.bytes T t ∧
      i = cStart μ.bytes T t + j ∧ ((rer word q lab (blk txt es T t)).map some ++
        List.replicate ((blk txt es T t).length - (rer word q lab (blk txt es T t)).length) none)[j]? = some o := by
    intro i o hi
    obtain ⟨t, a, j, h1, h2, h3, h4⟩ := flatMap_pos _ _ i (List.getElem?_eq_some_iff.mp hi).1
    have ht : t < T := by have := (List.getElem?_eq_some_iff.mp h1).1; simpa using this
    rw [List.getElem?_map, List.getElem?_range ht] at h1
    simp only [Option.map_some, Option.some.injEq] at h1
    subst h1
    refine ⟨t, ht, j, ?_, ?_, by rw [← h4]; exact hi⟩
    · have := rer_le (word := word) (q := q) (lab := lab) (blk txt es T t)
      simp only [List.length_append, List.length_map, List.length_replicate] at h2
      rw [hc]; omega
    · rw [h3, hstart]
      congr 1
      rw [← List.map_take, List.take_range, show min t T = t by omega]
      clear h2 h3 h4 hi
      generalize List.range t = l
      induction l with
      | nil => rfl
      | cons t l ih =>
        have := rer_le (word := word) (q := q) (lab := lab) (blk txt es T t)
        simp only [List.map_cons, List.flatMap_cons, List.flatten_cons, List.length_append, List.length_map, List.length_replicate] at ih ⊢
        omega
  refine ⟨(List.range T).map (blk txt es T), by simp, hall, fun out ho => ?_, fun gx gy => ?_⟩
  · unfold LoadEdgeList at ho
    rw [fileReader_all] at ho
    obtain ⟨c, h1, h2, h3, h4, h5, h7, h8, h9, h6⟩ := r1 out ho
    have hmr : ((List.range T).map (wState lw (fpV ops) (fpR ops) μ.bytes T)).foldl (fun a st => max a st.mr) 0 =
        Spec.maxOf ((((List.range T).map (blk txt es T)).flatMap (rer word q lab)).map (fun e => e.1)) := by
      rw [List.foldl_map]
      simp only [wState, hw1, foldl_upd, Nat.zero_max]
      rw [foldl_max_parts (fun t => rer word q lab (blk txt es T t)) (fun e => e.1), Nat.zero_max, List.flatMap_map]
    have hmc : ((List.range T).map (wState lw (fpV ops) (fpR ops) μ.bytes T)).foldl (fun a st => max a st.mc) 0 =
        Spec.maxOf ((((List.range T).map (blk txt es T)).flatMap (rer word q lab)).map (fun e => e.2.1)) := by
      rw [List.foldl_map]
      simp only [wState, hw1, foldl_upd, Nat.zero_max]
      rw [foldl_max_parts (fun t => rer word q lab (blk txt es T t)) (fun e => e.2.1), Nat.zero_max, List.flatMap_map]
    refine ⟨c, h1, by rw [h2, hstart, hall], h3, h4, h5, by rw [h7, hmr], by rw [h8, hmc], h9, fun i x y w hi => ?_⟩
    obtain ⟨t, ht, j, hj, rfl, hk⟩ := hpos i _ hi; clear hi; have hi := hk; clear hk
    refine h6 t ht j x y w ?_
    rw [hw1]
    by_cases hl : j < (rer word q lab (blk txt es T t)).length
    · rw [List.getElem?_append_left (by simpa using hl), List.getElem?_map] at hi
      cases h : (rer word q lab (blk txt es T t))[j]? with
      | none => rw [h] at hi; cases hi
      | some a => rw [h] at hi; simpa using hi
    · rw [List.getElem?_append_right (by simpa using Nat.le_of_not_lt hl), List.getElem?_replicate] at hi
      split at hi <;> simp at hi
  · obtain ⟨c, h1, h2⟩ := r2 ⟨gx, gy, fun _ => ops.zero⟩
    refine ⟨c, ?_, fun i hi => ?_⟩
    · unfold LoadEdgeList
      rw [fileReader_all]; exact h1
    · obtain ⟨t, ht, j, hj, rfl, hk⟩ := hpos i _ hi; clear hi; have hi := hk; clear hk
      refine h2 t ht j ?_ hj
      rw [hw1]
      apply Nat.le_of_not_lt
      intro hl
      rw [List.getElem?_append_left (by simpa using hl), List.getElem?_map] at hi
      cases h : (rer word q lab (blk txt es T t))[j]? with
      | none => rw [h] at hi; cases hi
      | some a => rw [h] at hi; simp at hi

end Pigo
