import Verif.Lemmas.SpecialLoad
import Verif.Props.FpDouble

/-!
# Properties: infinities and NaNs in text files

C104.  `COO::write` prints an infinite weight as `Inf` or `-Inf`, a NaN as `NaN` or `-NaN`.  What loading such a file gives.
-/

namespace Pigo

open Spec (IsDouble Rounding PowOk)
open Stb (printDouble)

variable {rnd pow : ℚ → ℚ} (R : Rounding rnd) (P : PowOk pow)

theorem rer_reread (q : Nat → ℚ) : ∀ b, rer Spec.UnsignedSpecial q (fun x => (x : ℚ)) b = Spec.reread q b
  | [] => rfl
  | [(x, y, v)] => by rw [rer, Spec.reread]
  | (x, y, v) :: (x', y', v') :: es => by
    rw [rer, Spec.reread, rer_reread q es, rer_reread q ((x', y', v') :: es)]

theorem cooText_wl (txt : Nat → List Byte) (es : List (Nat × Nat × Nat)) : es.flatMap (fun e => Spec.cooLine true txt e) = text (es.map (wl txt)) := by
  induction es with
  | nil => rfl
  | cons e es ih =>
    rw [List.flatMap_cons, ih, List.map_cons, text_cons]
    simp [Spec.cooLine, wl, str, nl]

/-- The text of an infinity or a NaN. -/
theorem special_text {v num buf : Nat} {t : List Byte} (h : ¬ Spec.IsFinite v) (ht : printDouble rnd num buf v = .ok t) :
    ∃ w, t = (if v.testBit 63 then [45] else []) ++ w ∧ (w = str "Inf" ∨ w = str "NaN") := by
  have := Stb.C67_special (Stb.ddScale rnd) num buf v h
  unfold printDouble at ht
  rw [this] at ht
  injection ht with ht
  refine ⟨if v % 2 ^ 52 = 0 then str "Inf" else str "NaN", ?_, by split <;> simp⟩
  rw [← ht]
  rfl

section
include R P

theorem special_entries {txt : Nat → List Byte} {es : List (Nat × Nat × Nat)}
    (htxt : ∀ e ∈ es, ∃ num buf, printDouble rnd num buf e.2.2 = .ok (txt e.2.2))
    (hw : ∀ e ∈ es, Spec.IsFinite e.2.2 → Spec.dblAbs e.2.2 ≤ 2 ^ 53) :
    ∃ q : Nat → ℚ, (∀ e ∈ es, Spec.IsFinite e.2.2 → |q e.2.2 - Spec.dbl e.2.2| ≤ 1 / 2 / 10 ^ 6 + 1 / 10 ^ 15 + Spec.dblAbs e.2.2 / 2 ^ 51) ∧
      (∀ v, ¬ Spec.IsFinite v → q v = 0) ∧ ∀ e ∈ es, WgtText (doubleOps rnd pow) Spec.UnsignedSpecial q txt e.2.2 := by
  have hdec : ∀ v, Decidable (Spec.IsFinite v) := fun v => by unfold Spec.IsFinite; infer_instance
  have hfin : ∀ e ∈ es, Spec.IsFinite e.2.2 → nl ∉ txt e.2.2 ∧ ∃ l : Spec.Lit, l.Ok ∧ l.text = txt e.2.2 ∧
      |evalLit (doubleOps rnd pow) l - Spec.dbl e.2.2| ≤ 1 / 2 / 10 ^ 6 + 1 / 10 ^ 15 + Spec.dblAbs e.2.2 / 2 ^ 51 := by
    intro e he hf
    obtain ⟨num, buf, ht⟩ := htxt e he
    obtain ⟨N, g0, _, l, g1, g2, _, _, _, _, _, g3⟩ := accuracy_case R P le_rfl (by norm_num) e.2.2 hf num buf _ ht
      (fun N ds h1 h2 _ _ => small_digits R P (hw e he hf) N ds h1 h2)
    refine ⟨?_, l, g1, g2, g3.trans ?_⟩
    · rw [g0]
      intro h
      have := (signed6_word _ _).2 _ h
      revert this; decide
    · have hd0 : 0 ≤ Spec.dblAbs e.2.2 := by unfold Spec.dblAbs; split <;> positivity
      norm_num; linarith
  refine ⟨fun v => if Spec.IsFinite v then ((Spec.parseLit (txt v)).map (evalLit (doubleOps rnd pow))).getD 0 else 0, ?_, ?_, ?_⟩
  · intro e he hf
    obtain ⟨_, l, l1, l2, l3⟩ := hfin e he hf
    simp only [if_pos hf, ← l2, parseLit_text l1, Option.map_some, Option.getD_some]
    exact l3
  · intro v hv; simp only [if_neg hv]
  · intro e he
    by_cases hf : Spec.IsFinite e.2.2
    · obtain ⟨h1, l, l1, l2, _⟩ := hfin e he hf
      refine ⟨h1, fun h => absurd hf h.1, fun _ => .inl ⟨l, l1, l2, ?_⟩⟩
      simp only [if_pos hf, ← l2, parseLit_text l1, Option.map_some, Option.getD_some]
    · obtain ⟨num, buf, ht⟩ := htxt e he
      obtain ⟨w, h1, h2⟩ := special_text hf ht
      have hwfp : ∀ b ∈ w, isFp b = false := by rcases h2 with rfl | rfl <;> decide
      have hwnl : nl ∉ w := by rcases h2 with rfl | rfl <;> decide
      rw [WgtText, h1]
      refine ⟨?_, fun h => ?_, fun h => .inr ?_⟩
      · split
        · simp only [List.mem_append, List.mem_singleton, not_or]; exact ⟨by decide, hwnl⟩
        · simpa using hwnl
      · rw [h.2]; simpa using hwfp
      · have hs : e.2.2.testBit 63 = true := by
          cases hb : e.2.2.testBit 63 with
          | true => rfl
          | false => exact absurd ⟨hf, hb⟩ h
        obtain ⟨c, t, hct⟩ : ∃ c t, w = c :: t := by rcases h2 with rfl | rfl <;> exact ⟨_, _, rfl⟩
        rw [hs, hct]
        refine ⟨c, t, rfl, hwfp c (by rw [hct]; simp), ?_⟩
        simp only [if_neg hf]
        show (0 : ℚ) = rnd (0 * (-1))
        rw [zero_mul, Stb.rnd_zero R]

/-- **C104, exactly.** A COO of doubles - finite ones up to `2^53` in absolute value, infinities and NaNs - is written with `COO::write`
by any number of threads and loaded as an edge list by `T'` threads.  The lines are split in `T'` blocks; every execution ends
with as many entries as were written, and in the slots of a block there is what `Spec.reread` says: an entry with a finite
weight is there, up to the accuracy of the six decimals; one with a negative infinity or a NaN with a sign is there
with the weight 0; one with a positive infinity or a NaN without a sign has the first label of the next line as
its weight, and the next entry is gone - or, at the end of the block, is gone itself.  The dimensions are those of the
entries that are there.  The labels of the slots left over are whatever the memory held before: any labels are possible. -/
theorem C104_exact {txt : Nat → List Byte} (T T' : Nat) (hT' : 0 < T') (lw ow pad : Nat) (hpad : 0 < pad) (c : Coo Nat)
    (es : List (Nat × Nat × Nat)) (h : Holds c true es) (hne : es ≠ []) (hlab : ∀ e ∈ es, e.1 < 2 ^ lw ∧ e.2.1 < 2 ^ lw ∧ e.1 ≤ 2 ^ 53)
    (hm : (Spec.cooText true txt es).length < 2 ^ ow)
    (htxt : ∀ e ∈ es, ∃ num buf, printDouble rnd num buf e.2.2 = .ok (txt e.2.2))
    (hw : ∀ e ∈ es, Spec.IsFinite e.2.2 → Spec.dblAbs e.2.2 ≤ 2 ^ 53) :
    ∃ q : Nat → ℚ, (∀ e ∈ es, Spec.IsFinite e.2.2 → |q e.2.2 - Spec.dbl e.2.2| ≤ 1 / 2 / 10 ^ 6 + 1 / 10 ^ 15 + Spec.dblAbs e.2.2 / 2 ^ 51) ∧
      (∀ v, ¬ Spec.IsFinite v → q v = 0) ∧
      (writeCoo T (wtFloat txt) c).All (fun bs => ∃ blocks, blocks.length = T' ∧ blocks.flatten = es ∧
        (∀ out, LoadEdgeList ⟨bs, pad⟩ lw ow {} (wFp (doubleOps rnd pow)) T' out → ∃ c', out = .ok c' ∧
          c'.m = es.length ∧ c'.x.length = c'.m ∧ c'.y.length = c'.m ∧ c'.w.length = c'.m ∧
          c'.nrows = (Spec.maxOf ((blocks.flatMap (Spec.reread q)).map (fun e => e.1)) + 1) % 2 ^ lw ∧
          c'.ncols = (Spec.maxOf ((blocks.flatMap (Spec.reread q)).map (fun e => e.2.1)) + 1) % 2 ^ lw ∧ c'.n = max c'.nrows c'.ncols ∧
          ∀ (i x y : Nat) (w : ℚ), (Spec.slots (Spec.reread q) blocks)[i]? = some (some (x, y, w)) →
            c'.x[i]? = some x ∧ c'.y[i]? = some y ∧ c'.w[i]? = some w) ∧
        ∀ gx gy : Nat → Nat, ∃ c', LoadEdgeList ⟨bs, pad⟩ lw ow {} (wFp (doubleOps rnd pow)) T' (.ok c') ∧
          ∀ i : Nat, (Spec.slots (Spec.reread q) blocks)[i]? = some none → c'.x[i]? = some (gx i) ∧ c'.y[i]? = some (gy i)) := by
  obtain ⟨q, q1, q2, q3⟩ := special_entries R P htxt hw
  refine ⟨q, q1, q2, (C46_coo_write T (wtFloat txt) _ _ (.float txt) c es h (fun _ _ => trivial) hne).mono (fun bs hbs => ?_)⟩
  have hbs' : bs = Spec.cooText true txt es := hbs
  have := special_load (doubleOps rnd pow) (word := Spec.UnsignedSpecial) (q := q) (lab := fun x => (x : ℚ)) (txt := txt) (μ := ⟨bs, pad⟩) hpad (es := es)
    (by rw [← cooText_wl]; exact hbs) (lw := lw) (ow := ow) hT' (by rw [hbs']; exact hm)
    (fun e he => ⟨(hlab e he).1, (hlab e he).2.1, by
      rw [fpDigits_double R _ (by rw [decimal_showNat]; exact (hlab e he).2.2), decimal_showNat], q3 e he⟩)
  rw [show rer Spec.UnsignedSpecial q (fun x => (x : ℚ)) = Spec.reread q from funext (rer_reread q)] at this
  exact this

end

theorem reread_plain {q : Nat → ℚ} : ∀ {b : List (Nat × Nat × Nat)}, (∀ e ∈ b, ¬ Spec.UnsignedSpecial e.2.2) → Spec.reread q b = b.map (fun e => (e.1, e.2.1, q e.2.2))
  | [], _ => rfl
  | [(x, y, v)], h => by rw [Spec.reread, if_neg (h (x, y, v) (by simp))]; rfl
  | (x, y, v) :: (x', y', v') :: es, h => by
    rw [Spec.reread, if_neg (h (x, y, v) (by simp)), reread_plain (fun e he => h e (List.mem_cons_of_mem _ he))]; rfl

theorem reread_le (q : Nat → ℚ) (b : List (Nat × Nat × Nat)) : (Spec.reread q b).length ≤ b.length := by
  rw [← rer_reread]; exact rer_le b

theorem reread_lt {q : Nat → ℚ} : ∀ {b : List (Nat × Nat × Nat)}, (∃ e ∈ b, Spec.UnsignedSpecial e.2.2) → (Spec.reread q b).length < b.length
  | [], ⟨_, h, _⟩ => by cases h
  | [(x, y, v)], ⟨e, h, h'⟩ => by
    simp only [List.mem_singleton] at h; subst h
    rw [Spec.reread, if_pos h']; simp
  | (x, y, v) :: (x', y', v') :: es, ⟨e, h, h'⟩ => by
    rw [Spec.reread]
    split
    · have := reread_le q es; simp only [List.length_cons]; omega
    · rename_i hv
      have := reread_lt (q := q) (b := (x', y', v') :: es) ⟨e, (List.mem_cons.mp h).resolve_left (by rintro rfl; exact hv h'), h'⟩
      simp only [List.length_cons] at this ⊢; omega

theorem slots_length {E F : Type} {read : List E → List F} (h : ∀ b, (read b).length ≤ b.length) (blocks : List (List E)) :
    (Spec.slots read blocks).length = blocks.flatten.length := by
  induction blocks with
  | nil => rfl
  | cons b bs ih =>
    have := h b
    unfold Spec.slots at ih ⊢
    simp only [List.flatMap_cons, List.flatten_cons, List.length_append, List.length_map, List.length_replicate, ih]
    omega

theorem slots_plain {q : Nat → ℚ} {blocks : List (List (Nat × Nat × Nat))} (h : ∀ e ∈ blocks.flatten, ¬ Spec.UnsignedSpecial e.2.2) :
    Spec.slots (Spec.reread q) blocks = blocks.flatten.map (fun e => some (e.1, e.2.1, q e.2.2)) := by
  induction blocks with
  | nil => rfl
  | cons b bs ih =>
    have h1 : ∀ e ∈ b, ¬ Spec.UnsignedSpecial e.2.2 := fun e he => h e (by simp [he])
    unfold Spec.slots at ih ⊢
    rw [List.flatMap_cons, ih (fun e he => h e (by rw [List.flatten_cons]; exact List.mem_append_right _ he)), reread_plain h1, List.length_map, Nat.sub_self, List.flatten_cons, List.map_append]
    simp [Function.comp_def]

section
include R P

/-- **C104**: without positive infinities and unsigned NaNs every entry is loaded again, by any number of threads: negative infinities and
NaNs with a sign silently become 0. -/
theorem C104_signed {txt : Nat → List Byte} (T T' : Nat) (hT' : 0 < T') (lw ow pad : Nat) (hpad : 0 < pad) (c : Coo Nat)
    (es : List (Nat × Nat × Nat)) (h : Holds c true es) (hne : es ≠ []) (hlab : ∀ e ∈ es, e.1 < 2 ^ lw ∧ e.2.1 < 2 ^ lw ∧ e.1 ≤ 2 ^ 53)
    (hm : (Spec.cooText true txt es).length < 2 ^ ow)
    (htxt : ∀ e ∈ es, ∃ num buf, printDouble rnd num buf e.2.2 = .ok (txt e.2.2))
    (hw : ∀ e ∈ es, Spec.IsFinite e.2.2 → Spec.dblAbs e.2.2 ≤ 2 ^ 53)
    (hs : ∀ e ∈ es, ¬ Spec.IsFinite e.2.2 → e.2.2.testBit 63 = true) :
    (writeCoo T (wtFloat txt) c).All (fun bs => ∀ out, LoadEdgeList ⟨bs, pad⟩ lw ow {} (wFp (doubleOps rnd pow)) T' out → ∃ c' es', out = .ok c' ∧
      Holds c' true es' ∧ List.Forall₂ (fun e e' => e'.1 = e.1 ∧ e'.2.1 = e.2.1 ∧
        (Spec.IsFinite e.2.2 → |e'.2.2 - Spec.dbl e.2.2| ≤ 1 / 2 / 10 ^ 6 + 1 / 10 ^ 15 + Spec.dblAbs e.2.2 / 2 ^ 51) ∧
        (¬ Spec.IsFinite e.2.2 → e'.2.2 = 0)) es es') := by
  obtain ⟨q, q1, q2, q3⟩ := C104_exact R P T T' hT' lw ow pad hpad c es h hne hlab hm htxt hw
  refine q3.mono (fun bs hbs out ho => ?_)
  obtain ⟨blocks, _, b2, b3, _⟩ := hbs
  obtain ⟨c', h1, h2, h3, h4, h5, _, _, _, h6⟩ := b3 out ho
  have hsl := slots_plain (q := q) (blocks := blocks) (by
    rw [b2]; intro e he hu
    have := hu.2
    rw [hs e he hu.1] at this; exact absurd this (by simp))
  rw [b2] at hsl
  refine ⟨c', es.map (fun e => (e.1, e.2.1, q e.2.2)), h1, ?_, ?_⟩
  · have hget : ∀ i < es.length, ∃ e, es[i]? = some e ∧ c'.x[i]? = some e.1 ∧ c'.y[i]? = some e.2.1 ∧ c'.w[i]? = some (q e.2.2) := by
      intro i hi
      refine ⟨es[i], by simp [hi], ?_⟩
      exact h6 i _ _ _ (by rw [hsl]; simp [hi])
    refine ⟨by rw [h2, List.length_map], ?_, ?_, fun _ => ?_⟩
    · rw [List.map_map]
      apply List.ext_getElem?
      intro i
      by_cases hi : i < es.length
      · obtain ⟨e, e1, e2, _, _⟩ := hget i hi
        rw [e2, List.getElem?_map, e1]; rfl
      · rw [List.getElem?_eq_none (by omega), List.getElem?_eq_none (by rw [List.length_map]; omega)]
    · rw [List.map_map]
      apply List.ext_getElem?
      intro i
      by_cases hi : i < es.length
      · obtain ⟨e, e1, _, e2, _⟩ := hget i hi
        rw [e2, List.getElem?_map, e1]; rfl
      · rw [List.getElem?_eq_none (by omega), List.getElem?_eq_none (by rw [List.length_map]; omega)]
    · rw [List.map_map]
      apply List.ext_getElem?
      intro i
      by_cases hi : i < es.length
      · obtain ⟨e, e1, _, _, e2⟩ := hget i hi
        rw [e2, List.getElem?_map, e1]; rfl
      · rw [List.getElem?_eq_none (by omega), List.getElem?_eq_none (by rw [List.length_map]; omega)]
  · rw [List.forall₂_map_right_iff, List.forall₂_same]
    exact fun e he => ⟨rfl, rfl, q1 e he, q2 _⟩

/-- **C104, one thread**: the slots are those of the whole list. -/
theorem C104_one_thread {txt : Nat → List Byte} (T : Nat) (lw ow pad : Nat) (hpad : 0 < pad) (c : Coo Nat)
    (es : List (Nat × Nat × Nat)) (h : Holds c true es) (hne : es ≠ []) (hlab : ∀ e ∈ es, e.1 < 2 ^ lw ∧ e.2.1 < 2 ^ lw ∧ e.1 ≤ 2 ^ 53)
    (hm : (Spec.cooText true txt es).length < 2 ^ ow)
    (htxt : ∀ e ∈ es, ∃ num buf, printDouble rnd num buf e.2.2 = .ok (txt e.2.2))
    (hw : ∀ e ∈ es, Spec.IsFinite e.2.2 → Spec.dblAbs e.2.2 ≤ 2 ^ 53) :
    ∃ q : Nat → ℚ, (∀ e ∈ es, Spec.IsFinite e.2.2 → |q e.2.2 - Spec.dbl e.2.2| ≤ 1 / 2 / 10 ^ 6 + 1 / 10 ^ 15 + Spec.dblAbs e.2.2 / 2 ^ 51) ∧
      (∀ v, ¬ Spec.IsFinite v → q v = 0) ∧
      (writeCoo T (wtFloat txt) c).All (fun bs =>
        ∀ out, LoadEdgeList ⟨bs, pad⟩ lw ow {} (wFp (doubleOps rnd pow)) 1 out → ∃ c', out = .ok c' ∧ c'.m = es.length ∧
          ∀ (i x y : Nat) (w : ℚ), (Spec.reread q es)[i]? = some (x, y, w) → c'.x[i]? = some x ∧ c'.y[i]? = some y ∧ c'.w[i]? = some w) := by
  obtain ⟨q, q1, q2, q3⟩ := C104_exact R P T 1 (by omega) lw ow pad hpad c es h hne hlab hm htxt hw
  refine ⟨q, q1, q2, q3.mono (fun bs hbs out ho => ?_)⟩
  obtain ⟨blocks, b1, b2, b3, _⟩ := hbs
  obtain ⟨c', h1, h2, _, _, _, _, _, _, h6⟩ := b3 out ho
  refine ⟨c', h1, h2, fun i x y w hi => h6 i x y w ?_⟩
  match blocks, b1 with
  | [b], _ =>
    simp only [List.flatten_cons, List.flatten_nil, List.append_nil] at b2
    subst b2
    have hlt := (List.getElem?_eq_some_iff.mp hi).1
    simp only [Spec.slots, List.flatMap_cons, List.flatMap_nil, List.append_nil]
    rw [List.getElem?_append_left (by simpa using hlt), List.getElem?_map, hi]; rfl

/-- **C104 fails**: if a weight is a positive infinity or a NaN without sign, an entry is lost whatever the number of threads: there
are executions that end, without an error, with labels other than those written. -/
theorem C104_lost_violated {txt : Nat → List Byte} (T T' : Nat) (hT' : 0 < T') (lw ow pad : Nat) (hpad : 0 < pad) (c : Coo Nat)
    (es : List (Nat × Nat × Nat)) (h : Holds c true es) (hlab : ∀ e ∈ es, e.1 < 2 ^ lw ∧ e.2.1 < 2 ^ lw ∧ e.1 ≤ 2 ^ 53)
    (hm : (Spec.cooText true txt es).length < 2 ^ ow)
    (htxt : ∀ e ∈ es, ∃ num buf, printDouble rnd num buf e.2.2 = .ok (txt e.2.2))
    (hw : ∀ e ∈ es, Spec.IsFinite e.2.2 → Spec.dblAbs e.2.2 ≤ 2 ^ 53)
    (hs : ∃ e ∈ es, Spec.UnsignedSpecial e.2.2) :
    (writeCoo T (wtFloat txt) c).All (fun bs => ∃ i < es.length, ∀ a b : Nat, ∃ c', LoadEdgeList ⟨bs, pad⟩ lw ow {} (wFp (doubleOps rnd pow)) T' (.ok c') ∧
      c'.m = es.length ∧ c'.x[i]? = some a ∧ c'.y[i]? = some b) := by
  have hne : es ≠ [] := by rintro rfl; obtain ⟨_, h, _⟩ := hs; cases h
  obtain ⟨q, q1, q2, q3⟩ := C104_exact R P T T' hT' lw ow pad hpad c es h hne hlab hm htxt hw
  refine q3.mono (fun bs hbs => ?_)
  obtain ⟨blocks, b1, b2, b3, b4⟩ := hbs
  have hnone : none ∈ Spec.slots (Spec.reread q) blocks := by
    obtain ⟨e, he, hu⟩ := hs
    rw [← b2] at he
    obtain ⟨b, hb, heb⟩ := List.mem_flatten.mp he
    unfold Spec.slots
    rw [List.mem_flatMap]
    refine ⟨b, hb, List.mem_append_right _ ?_⟩
    have := reread_lt (q := q) ⟨e, heb, hu⟩
    rw [List.mem_replicate]
    exact ⟨by omega, rfl⟩
  obtain ⟨i, hi⟩ := List.mem_iff_getElem?.mp hnone
  have hlt := (List.getElem?_eq_some_iff.mp hi).1
  rw [slots_length (reread_le q), b2] at hlt
  refine ⟨i, hlt, fun a b => ?_⟩
  obtain ⟨c', h1, h2⟩ := b4 (fun _ => a) (fun _ => b)
  obtain ⟨c'', h3, h4, _⟩ := b3 _ h1
  cases h3
  exact ⟨c', h1, h4, h2 i hi⟩

end

/-! ## Instances -/

/-- Positive and negative infinity, and a NaN. -/
def dblInf : Nat := 2047 * 2 ^ 52
def dblMinusInf : Nat := 2 ^ 63 + 2047 * 2 ^ 52
def dblNaN : Nat := 2047 * 2 ^ 52 + 2 ^ 51

theorem special_ex_text : printDouble Stb.rne 0 0 dblInf = .ok (str "Inf") ∧ printDouble Stb.rne 0 0 dblMinusInf = .ok (str "-Inf") ∧
    printDouble Stb.rne 0 0 dblNaN = .ok (str "NaN") := by
  refine ⟨?_, ?_, ?_⟩
  · unfold printDouble
    rw [Stb.C67_special _ _ _ _ (by unfold Spec.IsFinite dblInf; decide +kernel), show dblInf.testBit 63 = false by decide +kernel,
      if_pos (show dblInf % 2 ^ 52 = 0 by decide +kernel)]; rfl
  · unfold printDouble
    rw [Stb.C67_special _ _ _ _ (by unfold Spec.IsFinite dblMinusInf; decide +kernel), show dblMinusInf.testBit 63 = true by decide +kernel,
      if_pos (show dblMinusInf % 2 ^ 52 = 0 by decide +kernel)]; rfl
  · unfold printDouble
    rw [Stb.C67_special _ _ _ _ (by unfold Spec.IsFinite dblNaN; decide +kernel), show dblNaN.testBit 63 = false by decide +kernel,
      if_neg (show ¬ dblNaN % 2 ^ 52 = 0 by decide +kernel)]; rfl

/-- `0 5 -Inf`, `1 2 Inf`, `3 4 -2.5`, `6 7 NaN`. -/
def specialEs : List (Nat × Nat × Nat) := [(0, 5, dblMinusInf), (1, 2, dblInf), (3, 4, dblTwoHalf), (6, 7, dblNaN)]

def specialTxt (v : Nat) : List Byte := if v = dblInf then str "Inf" else if v = dblMinusInf then str "-Inf" else if v = dblNaN then str "NaN" else str "-2.500000"

def specialCoo : Coo Nat := { x := [0, 1, 3, 6], y := [5, 2, 4, 7], w := [dblMinusInf, dblInf, dblTwoHalf, dblNaN], n := 8, m := 4, nrows := 7, ncols := 8 }

theorem special_ex_hyps : Holds specialCoo true specialEs ∧ (∀ e ∈ specialEs, e.1 < 2 ^ 32 ∧ e.2.1 < 2 ^ 32 ∧ e.1 ≤ 2 ^ 53) ∧
    (Spec.cooText true specialTxt specialEs).length < 2 ^ 64 ∧
    (∀ e ∈ specialEs, ∃ num buf, printDouble Stb.rne num buf e.2.2 = .ok (specialTxt e.2.2)) ∧
    (∀ e ∈ specialEs, Spec.IsFinite e.2.2 → Spec.dblAbs e.2.2 ≤ 2 ^ 53) ∧ ∃ e ∈ specialEs, Spec.UnsignedSpecial e.2.2 := by
  have s1 : specialTxt dblInf = str "Inf" := by decide +kernel
  have s2 : specialTxt dblMinusInf = str "-Inf" := by decide +kernel
  have s3 : specialTxt dblNaN = str "NaN" := by decide +kernel
  have s4 : specialTxt dblTwoHalf = str "-2.500000" := by decide +kernel
  refine ⟨⟨rfl, rfl, rfl, fun _ => rfl⟩, by decide +kernel, by decide +kernel, ?_, ?_, (1, 2, dblInf), by simp [specialEs], by decide +kernel⟩
  · intro e he
    refine ⟨0, 0, ?_⟩
    simp only [specialEs, List.mem_cons, List.not_mem_nil, or_false] at he
    rcases he with rfl | rfl | rfl | rfl
    · rw [s2]; exact special_ex_text.2.1
    · rw [s1]; exact special_ex_text.1
    · rw [s4]; exact dblTwoHalf_text
    · rw [s3]; exact special_ex_text.2.2
  · intro e he hf
    simp only [specialEs, List.mem_cons, List.not_mem_nil, or_false] at he
    rcases he with rfl | rfl | rfl | rfl
    · exact absurd hf (by unfold Spec.IsFinite; decide +kernel)
    · exact absurd hf (by unfold Spec.IsFinite; decide +kernel)
    · rw [dblTwoHalf_abs]; norm_num
    · exact absurd hf (by unfold Spec.IsFinite; decide +kernel)

/-- What one thread reads of these: the second entry has the weight 3, the third is gone, and so is the last one. -/
example (q : Nat → ℚ) : Spec.reread q specialEs = [(0, 5, q dblMinusInf), (1, 2, 3)] := by
  unfold specialEs
  rw [Spec.reread, if_neg (by decide +kernel), Spec.reread, if_pos (by decide +kernel), Spec.reread, if_pos (by decide +kernel)]
  norm_num

/-- Any number of threads: an entry is lost. -/
example (T T' : Nat) (hT' : 0 < T') : (writeCoo T (wtFloat specialTxt) specialCoo).All (fun bs => ∃ i < 4, ∀ a b : Nat, ∃ c',
    LoadEdgeList ⟨bs, 9⟩ 32 64 {} (wFp (doubleOps Stb.rne (fun x => (10 : ℚ) ^ x.num))) T' (.ok c') ∧ c'.m = 4 ∧ c'.x[i]? = some a ∧ c'.y[i]? = some b) :=
  C104_lost_violated Stb.rne_rounding powOk_exact T T' hT' 32 64 9 (by decide) specialCoo specialEs special_ex_hyps.1 special_ex_hyps.2.1 special_ex_hyps.2.2.1
    special_ex_hyps.2.2.2.1 special_ex_hyps.2.2.2.2.1 special_ex_hyps.2.2.2.2.2

end Pigo
