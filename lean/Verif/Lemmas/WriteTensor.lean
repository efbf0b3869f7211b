import Verif.Lemmas.Write

/-!
# Lemmas about `Tensor::write`
-/

namespace Pigo

variable {W : Type}

/-- The arrays of `t` hold exactly the entries `es` (coordinates and weight), in this order. -/
structure HoldsT (t : Tensor W) (wgt : Bool) (es : List (List Nat × W)) : Prop where
  m : t.m = es.length
  order : ∀ e ∈ es, e.1.length = t.order
  c : t.c = es.flatMap (fun e => e.1)
  w : wgt = true → t.w = es.map (fun e => e.2)

theorem flatMap_get {α β : Type} {f : α → List β} {k : Nat} : ∀ {es : List α} (_ : ∀ a ∈ es, (f a).length = k) {e i : Nat} {p : α} (_ : es[e]? = some p)
    (_ : i < k), (es.flatMap f)[e * k + i]? = (f p)[i]?
  | [], _, e, _, _, he, _ => by simp at he
  | a :: es, h, 0, i, p, he, hi => by
    simp only [List.getElem?_cons_zero, Option.some.injEq] at he
    subst he
    rw [List.flatMap_cons, Nat.zero_mul, Nat.zero_add, List.getElem?_append_left (by rw [h a (List.mem_cons_self ..)]; exact hi)]
  | a :: es, h, e+1, i, p, he, hi => by
    have ha := h a (List.mem_cons_self ..)
    rw [List.getElem?_cons_succ] at he
    rw [List.flatMap_cons, List.getElem?_append_right (by rw [ha, Nat.succ_mul]; omega), ha, Nat.succ_mul,
      show e * k + k + i - k = e * k + i by omega]
    exact flatMap_get (fun a ha => h a (List.mem_cons_of_mem _ ha)) he hi

theorem flatMap_len {α β : Type} {f : α → List β} {k : Nat} {es : List α} (h : ∀ a ∈ es, (f a).length = k) : (es.flatMap f).length = es.length * k := by
  induction es with
  | nil => simp
  | cons a es ih =>
    rw [List.flatMap_cons, List.length_append, h a (List.mem_cons_self ..), ih (fun a ha => h a (List.mem_cons_of_mem _ ha)), List.length_cons, Nat.succ_mul, Nat.add_comm]

theorem HoldsT.coord {t : Tensor W} {wgt : Bool} {es : List (List Nat × W)} (h : HoldsT t wgt es) {ob : Nat} (hfit : t.order * t.m < 256 ^ ob)
    {e : Nat} {p : List Nat × W} (he : es[e]? = some p) {i : Nat} {v : Nat} (hv : p.1[i]? = some v) :
    load t.c (inOrd (8 * ob) (e * t.order + i)) = .ok v := by
  have hi : i < t.order := by rw [← h.order p (List.mem_of_getElem? he)]; exact (List.getElem?_eq_some_iff.mp hv).1
  have hle : e < t.m := by rw [h.m]; exact (List.getElem?_eq_some_iff.mp he).1
  have hb : e * t.order + i < t.order * t.m := by
    have : (e + 1) * t.order ≤ t.m * t.order := Nat.mul_le_mul_right _ hle
    rw [Nat.mul_comm t.order]
    rw [Nat.succ_mul] at this
    omega
  rw [inOrd_bytes (by omega)]
  apply load_ok
  rw [h.c, flatMap_get h.order he hi, hv]

theorem inter_cons (a b : List Byte) (l : List (List Byte)) : List.intercalate (str " ") (a :: b :: l) = a ++ [32] ++ List.intercalate (str " ") (b :: l) := by
  simp [List.intercalate, str_sp]

theorem inter_one (a : List Byte) : List.intercalate (str " ") [a] = a := by simp [List.intercalate]

theorem inter_snoc : ∀ (l : List (List Byte)) (w : List Byte), l ≠ [] → List.intercalate (str " ") (l ++ [w]) = List.intercalate (str " ") l ++ [32] ++ w
  | [], _, h => absurd rfl h
  | [a], w, _ => by rw [List.singleton_append, inter_cons, inter_one, inter_one]
  | a :: b :: l, w, _ => by
    have := inter_snoc (b :: l) w (by simp)
    rw [List.cons_append, List.cons_append, inter_cons, ← List.cons_append, this, inter_cons]
    simp only [List.append_assoc]

theorem coordsSize_ok {t : Tensor W} {wgt : Bool} {es : List (List Nat × W)} (h : HoldsT t wgt es) {ob : Nat} (hfit : t.order * t.m < 256 ^ ob)
    {e : Nat} {p : List Nat × W} (he : es[e]? = some p) : ∀ k i, k + 1 + i = t.order →
    coordsSize ob t e (List.range' i (k + 1)) = .ok ((List.intercalate (str " ") ((p.1.drop i).map Spec.showNat)).length + 1) := by
  have hlen := h.order p (List.mem_of_getElem? he)
  intro k
  induction k with
  | zero =>
    intro i hi
    have hg : p.1[i]? = some (p.1[i]'(by omega)) := List.getElem?_eq_getElem _
    rw [List.range'_succ, coordsSize, h.coord hfit he hg, ok_bind]
    rw [List.drop_eq_getElem_cons (by omega), List.drop_of_length_le (by omega), List.map_cons, List.map_nil, inter_one, writeSizeU_eq]
    rfl
  | succ k ih =>
    intro i hi
    have hg : p.1[i]? = some (p.1[i]'(by omega)) := List.getElem?_eq_getElem _
    rw [List.range'_succ, coordsSize, h.coord hfit he hg, ok_bind, ih (i + 1) (by omega), ok_bind]
    rw [List.drop_eq_getElem_cons (i := i) (by omega), List.drop_eq_getElem_cons (i := i + 1) (by omega), writeSizeU_eq]
    simp only [List.map_cons, inter_cons, List.length_append, List.length_singleton]
    congr 1

theorem coordsActs_ok {t : Tensor W} {wgt : Bool} {es : List (List Nat × W)} (h : HoldsT t wgt es) {ob : Nat} (hfit : t.order * t.m < 256 ^ ob)
    {e : Nat} {p : List Nat × W} (he : es[e]? = some p) : ∀ k i fp, k + 1 + i = t.order →
    ∃ acts, coordsActs ob t e fp (List.range' i (k + 1)) = .ok (acts, fp + (List.intercalate (str " ") ((p.1.drop i).map Spec.showNat)).length) ∧
      Puts acts fp (List.intercalate (str " ") ((p.1.drop i).map Spec.showNat)) := by
  have hlen := h.order p (List.mem_of_getElem? he)
  intro k
  induction k with
  | zero =>
    intro i fp hi
    have hg : p.1[i]? = some (p.1[i]'(by omega)) := List.getElem?_eq_getElem _
    rw [List.range'_succ, coordsActs, h.coord hfit he hg, ok_bind]
    rw [List.drop_eq_getElem_cons (by omega), List.drop_of_length_le (by omega), List.map_cons, List.map_nil, inter_one]
    simp only
    rw [if_neg (by omega)]
    simp only [List.range'_zero, coordsActs, ok_bind, List.append_nil]
    exact ex_acts (writeAsciiU_acts fp _).2 (puts_uint fp _)
  | succ k ih =>
    intro i fp hi
    have hg : p.1[i]? = some (p.1[i]'(by omega)) := List.getElem?_eq_getElem _
    rw [List.range'_succ, coordsActs, h.coord hfit he hg, ok_bind]
    rw [List.drop_eq_getElem_cons (i := i) (by omega)]
    simp only
    rw [if_pos (by omega), (writeAsciiU_acts fp _).2]
    obtain ⟨a, h1, h2⟩ := ih (i + 1) (fp + (Spec.showNat (p.1[i]'(by omega))).length + 1) (by omega)
    simp only [putChar]
    rw [h1, ok_bind]
    rw [List.drop_eq_getElem_cons (i := i + 1) (by omega)] at h2 ⊢
    simp only [List.map_cons, inter_cons]
    rw [List.map_cons] at h2
    refine ex_acts ?_ ?_
    · simp only [List.length_append, List.length_singleton]; omega
    · exact ((puts_uint fp _).then (puts_char (fp + (Spec.showNat (p.1[i]'(by omega))).length) 32) rfl).then h2
        (by simp only [List.length_append, List.length_singleton]; omega)

theorem tensorLine_ok {wt : WText W} {txt : W → List Byte} {t : Tensor W} {es : List (List Nat × W)} (h : HoldsT t wt.wgt es) (ho : 0 < t.order)
    {ob : Nat} (hfit : t.order * t.m < 256 ^ ob)
    (hw : wt.wgt = true → ∀ p ∈ es, wt.Ok (txt p.2) p.2) {e : Nat} {p : List Nat × W} (he : es[e]? = some p) :
    LineOk (tensorLineSize ob wt t) (tensorLineActs ob wt t) (Spec.tensorLine wt.wgt txt p) e := by
  have hr : List.range t.order = List.range' 0 (t.order - 1 + 1) := by rw [List.range_eq_range']; congr 1; omega
  have hne : p.1.map Spec.showNat ≠ [] := by
    intro hn
    have := h.order p (List.mem_of_getElem? he)
    rw [List.map_eq_nil_iff] at hn
    rw [hn] at this
    simp only [List.length_nil] at this
    omega
  constructor
  · unfold tensorLineSize
    rw [hr, coordsSize_ok h hfit he _ _ (by omega), ok_bind, List.drop_zero]
    simp only [Spec.tensorLine, str_nl]
    split
    · rename_i hg
      rw [load_ok (v := p.2) (by rw [h.w hg, List.getElem?_map, he]; rfl), ok_bind, (hw hg p (List.mem_of_getElem? he)).size, inter_snoc _ _ hne]
      simp only [List.length_append, List.length_singleton]
      congr 1; omega
    · simp
  · intro fp
    obtain ⟨a1, h1, h2⟩ := coordsActs_ok h hfit he (t.order - 1) 0 fp (by omega)
    rw [List.drop_zero] at h1 h2
    unfold tensorLineActs
    rw [hr, h1, ok_bind]
    simp only [Spec.tensorLine, str_nl, putChar]
    split
    · rename_i hg
      rw [load_ok (v := p.2) (by rw [h.w hg, List.getElem?_map, he]; rfl), ok_bind, inter_snoc _ _ hne]
      obtain ⟨a, h3, h4⟩ := (hw hg p (List.mem_of_getElem? he)).ascii (fp + (List.intercalate (str " ") (p.1.map Spec.showNat)).length + 1)
      rw [h3, ok_bind]
      refine ex_acts ?_ ?_
      · simp only [List.length_append, List.length_singleton]; omega
      · have := (h2.then (puts_char (fp + (List.intercalate (str " ") (p.1.map Spec.showNat)).length) 32) rfl).then h4
          (by simp only [List.length_append, List.length_singleton]; omega)
        simpa only [putChar, List.append_assoc] using this
    · rw [List.append_nil]
      refine ex_acts ?_ ?_
      · simp only [List.length_append, List.length_singleton]; omega
      · have := h2.then (puts_char (fp + (List.intercalate (str " ") (p.1.map Spec.showNat)).length) 10) rfl
        simpa only [putChar, List.append_assoc] using this

end Pigo
