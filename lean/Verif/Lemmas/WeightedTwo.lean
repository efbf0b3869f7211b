import Verif.Lemmas.WeightedLines
import Verif.Spec.Weighted

/-!
# Weighted loads of files without weights
-/

namespace Pigo

variable {W : Type} {μ : Mapping} {e : Nat}

theorem halved_length : ∀ es : List (Nat × Nat), (Spec.halved es).length = es.length / 2
  | [] => rfl
  | [_] => by simp [Spec.halved]
  | (x, y) :: (z, u) :: es => by
    simp only [Spec.halved, List.length_cons, halved_length es]
    omega

/-- Blank lines, then a line with numbers, if there is any. -/
theorem split_blank : ∀ L : List (List Byte), (∀ l ∈ L, Spec.ints l = []) ∨ ∃ B l L', L = B ++ l :: L' ∧ (∀ l ∈ B, Spec.ints l = []) ∧ Spec.ints l ≠ []
  | [] => .inl (by simp)
  | l :: L => by
    by_cases h : Spec.ints l = []
    · rcases split_blank L with h' | ⟨B, l', L', rfl, h1, h2⟩
      · left
        intro l' hl
        rcases List.mem_cons.mp hl with rfl | hl
        · exact h
        · exact h' l' hl
      · refine .inr ⟨l :: B, l', L', rfl, ?_, h2⟩
        intro l' hl
        rcases List.mem_cons.mp hl with rfl | hl
        · exact h
        · exact h1 l' hl
    · exact .inr ⟨[], l, L, rfl, by simp, h⟩

theorem edges_blank {B : List (List Byte)} (h : ∀ l ∈ B, Spec.ints l = []) : B.filterMap Spec.edge = [] := by
  apply List.filterMap_eq_nil_iff.mpr
  intro l hl
  unfold Spec.edge; rw [h l hl]

/-- Pass 1 over lines with two numbers or none. -/
theorem cScan_two {σ : List Byte} (hσ : firstIntL σ = []) : ∀ (L : List (List Byte)), NoNl L → (∀ l ∈ L, Spec.ints l = [] ∨ 2 ≤ (Spec.ints l).length) → ∀ n,
    (firstIntL (text L ++ σ)).length ≤ n → cScan n (firstIntL (text L ++ σ)) = (L.filterMap Spec.edge).length
  | [], _, _, n, _ => by
    rw [text_nil, List.nil_append, hσ]; cases n <;> simp [cScan]
  | l :: L, hnl, h2, n, hn => by
    have hl := hnl l (by simp)
    have hnl' : NoNl L := fun l' h' => hnl l' (List.mem_cons_of_mem _ h')
    have h2' := fun l' h' => h2 l' (List.mem_cons_of_mem _ h')
    rw [text_cons, List.append_assoc, List.cons_append, first_line hl] at hn ⊢
    rcases h2 l (by simp) with h | h
    · rw [if_pos h] at hn ⊢
      have he : Spec.edge l = none := by unfold Spec.edge; rw [h]
      rw [List.filterMap_cons, he]
      exact cScan_two hσ L hnl' h2' n hn
    · have hne : Spec.ints l ≠ [] := by intro hh; rw [hh] at h; simp at h
      rw [if_neg hne] at hn ⊢
      have hf : firstIntL l ≠ [] := fun hh => hne ((firstIntL_nil_iff l hl).mp hh)
      have hat : AtNum (firstIntL l ++ nl :: (text L ++ σ)) := atNum_append (atNum_firstInt _ _) hf
      obtain ⟨c1, c2⟩ := cStep hl (text L ++ σ) h
      rw [cScan_step hat (by simp) c1 hn (k := (firstIntL (text L ++ σ)).length) (by rw [c2]; exact Nat.le_refl _), c2,
        cScan_two hσ L hnl' h2' _ (Nat.le_refl _)]
      have he : ∃ en, Spec.edge l = some en := by
        unfold Spec.edge
        match hi : Spec.ints l, h with
        | x :: y :: t, _ => exact ⟨(x, y), rfl⟩
      obtain ⟨en, he⟩ := he
      rw [List.filterMap_cons, he]; rfl

/-- Two numbers, then none. -/
theorem wLast {l : List Byte} (hn : nl ∉ l) {rest : List Byte} (hrest : firstIntL rest = []) (h : (Spec.ints l).length = 2) :
    uS (preW (firstIntL l ++ nl :: rest)) = [] ∧ ∀ ww, uV ww (preW (firstIntL l ++ nl :: rest)) = 0 := by
  match hi : Spec.ints l, h with
  | [x, y], _ =>
    obtain ⟨n0, h1, h2, n1, h3, h4, h5⟩ := nextInt_of_ints hn hi
    obtain ⟨m0, k1, k2, m1, k3, k4, k5⟩ := nextInt_of_ints n1 h3
    have hd : ∀ s : List Byte, nextIntL (s.dropWhile isDigit) = firstIntL (s.dropWhile isDigit) := fun s => by unfold nextIntL; rw [dropWhile_idem]
    have e1 : afterNum (firstIntL l ++ nl :: rest) = (firstIntL l).dropWhile isDigit ++ nl :: rest := (afterNum_line rest (atNum_firstInt _ _) h1).1
    have e2 : nextIntL (afterNum (firstIntL l ++ nl :: rest)) = firstIntL ((firstIntL l).dropWhile isDigit) ++ nl :: rest := by
      rw [e1, nextIntL_line _ _ n1 (by rw [hd]; exact k1), hd]
    have e3 : preW (firstIntL l ++ nl :: rest) = (firstIntL ((firstIntL l).dropWhile isDigit)).dropWhile isDigit ++ nl :: rest := by
      unfold preW; rw [e2]; exact (afterNum_line rest (atNum_firstInt _ _) k1).1
    have e4 : nextIntL (preW (firstIntL l ++ nl :: rest)) = [] := by
      rw [e3, nextIntL_over _ m1 (by rw [hd, firstIntL_nil_iff _ m1]; exact k3), hrest]
    exact ⟨by unfold uS; rw [e4]; rfl, fun ww => by unfold uV; rw [e4]; simp [numAt, toDigitL, decVal]⟩

/-- Pass 2 over lines with two numbers or none. -/
theorem wScan_two {lw ww : Nat} {σ : List Byte} (hσ : firstIntL σ = []) : ∀ (k : Nat) (L : List (List Byte)), L.length ≤ k → NoNl L →
    (∀ l ∈ L, Spec.ints l = [] ∨ (Spec.ints l).length = 2) → ∀ n, (firstIntL (text L ++ σ)).length ≤ n →
    (wScan lw (uV ww) uS n (firstIntL (text L ++ σ))).1 = (Spec.halved (L.filterMap Spec.edge)).map (fun t => (t.1 % 2 ^ lw, t.2.1 % 2 ^ lw, t.2.2 % 2 ^ ww)) ∧
    ((wScan lw (uV ww) uS n (firstIntL (text L ++ σ))).2 = none ∨
      (wScan lw (uV ww) uS n (firstIntL (text L ++ σ))).2 = some 0 ∧ (L.filterMap Spec.edge).length % 2 = 1)
  | k, L, hk, hnl, h2, n, hn => by
    rcases split_blank L with hb | ⟨B, l, L', rfl, hB, hl⟩
    · rw [firstInt_blank hnl hb, hσ, edges_blank hb]
      cases n <;> simp [wScan, Spec.halved]
    · have hnB : NoNl B := fun l' h' => hnl l' (by simp [h'])
      have hnl1 : nl ∉ l := hnl l (by simp)
      have hnL : NoNl L' := fun l' h' => hnl l' (by simp [h'])
      have h2' : ∀ l ∈ L', Spec.ints l = [] ∨ (Spec.ints l).length = 2 := fun l' h' => h2 l' (by simp [h'])
      have hl2 : (Spec.ints l).length = 2 := (h2 l (by simp)).resolve_left hl
      have htext : firstIntL (text (B ++ l :: L') ++ σ) = firstIntL l ++ nl :: (text L' ++ σ) := by
        rw [text_append, List.append_assoc, firstInt_blank hnB hB, text_cons, List.append_assoc, List.cons_append, first_line hnl1, if_neg hl]
      have hf : firstIntL l ≠ [] := fun hh => hl ((firstIntL_nil_iff l hnl1).mp hh)
      have hat : AtNum (firstIntL l ++ nl :: (text L' ++ σ)) := atNum_append (atNum_firstInt _ _) hf
      obtain ⟨x, y, hxy⟩ : ∃ x y, Spec.ints l = [x, y] := by
        match hi : Spec.ints l, hl2 with
        | [x, y], _ => exact ⟨x, y, rfl⟩
      have hed : (B ++ l :: L').filterMap Spec.edge = (x, y) :: L'.filterMap Spec.edge := by
        rw [List.filterMap_append, edges_blank hB, List.nil_append, List.filterMap_cons]
        have : Spec.edge l = some (x, y) := by unfold Spec.edge; rw [hxy]
        rw [this]
      rw [htext] at hn ⊢
      rw [hed]
      rcases split_blank L' with hb | ⟨B', l', L'', rfl, hB', hl'⟩
      · have hrest : firstIntL (text L' ++ σ) = [] := by rw [firstInt_blank hnL hb, hσ]
        obtain ⟨w1, w2⟩ := wLast hnl1 hrest hl2
        have hlen : 0 < (firstIntL l ++ nl :: (text L' ++ σ)).length := by simp; omega
        obtain ⟨n, rfl⟩ : ∃ q, n = q + 1 := ⟨n - 1, by omega⟩
        rw [wScan, if_neg (by simp), if_pos w1, edges_blank hb]
        exact ⟨rfl, .inr ⟨by rw [w2], rfl⟩⟩
      · have hnB' : NoNl B' := fun l' h' => hnL l' (by simp [h'])
        have hnl1' : nl ∉ l' := hnL l' (by simp)
        have hnL' : NoNl L'' := fun l' h' => hnL l' (by simp [h'])
        have h2'' : ∀ l ∈ L'', Spec.ints l = [] ∨ (Spec.ints l).length = 2 := fun l' h' => h2' l' (by simp [h'])
        have hl2' : (Spec.ints l').length = 2 := (h2' l' (by simp)).resolve_left hl'
        obtain ⟨z, u, hzu⟩ : ∃ x y, Spec.ints l' = [x, y] := by
          match hi : Spec.ints l', hl2' with
          | [x, y], _ => exact ⟨x, y, rfl⟩
        have hed' : (B' ++ l' :: L'').filterMap Spec.edge = (z, u) :: L''.filterMap Spec.edge := by
          rw [List.filterMap_append, edges_blank hB', List.nil_append, List.filterMap_cons]
          have : Spec.edge l' = some (z, u) := by unfold Spec.edge; rw [hzu]
          rw [this]
        have htx : text (B' ++ l' :: L'') ++ σ = text B' ++ (l' ++ nl :: (text L'' ++ σ)) := by
          rw [text_append, text_cons]; simp
        rw [hed']
        rw [htx] at hn hat ⊢
        obtain ⟨w1, w2, w3⟩ := wStep2 hnl1 hnl1' (text L'' ++ σ) hxy hzu B' hnB' hB'
        obtain ⟨a1, a2, a3⟩ := w3 lw ww
        rw [wScan_step uS_suffix hat (by simp) w1 hn (k := (firstIntL (text L'' ++ σ)).length) (by rw [w2]; exact Nat.le_refl _), w2, a1, a2, a3]
        simp only [List.length_append, List.length_cons] at hk
        cases k with
        | zero => omega
        | succ k =>
          obtain ⟨i1, i2⟩ := wScan_two (lw := lw) (ww := ww) hσ k L'' (by omega) hnL' h2'' _ (Nat.le_refl _)
          refine ⟨by rw [Spec.halved, List.map_cons, i1], ?_⟩
          rcases i2 with i2 | ⟨i2, i3⟩
          · exact .inl i2
          · exact .inr ⟨i2, by simp only [List.length_cons]; omega⟩

/-- The stores of a list of entries. -/
theorem run_entActs : ∀ (es : List (Nat × Nat × W)) (b : Nat) (s : Mem W), b + es.length ≤ s.x.length → b + es.length ≤ s.y.length → b + es.length ≤ s.w.length →
    ∃ s', runActs stepAct (entActs b es) s = .ok s' ∧ s'.x.length = s.x.length ∧ s'.y.length = s.y.length ∧ s'.w.length = s.w.length ∧
      (∀ i x y w, es[i]? = some (x, y, w) → s'.x[b + i]? = some x ∧ s'.y[b + i]? = some y ∧ s'.w[b + i]? = some w) ∧
      (∀ i, i < b ∨ b + es.length ≤ i → s'.x[i]? = s.x[i]? ∧ s'.y[i]? = s.y[i]? ∧ s'.w[i]? = s.w[i]?)
  | [], b, s, _, _, _ => ⟨s, rfl, rfl, rfl, rfl, fun i x y w h => by simp at h, fun i _ => ⟨rfl, rfl, rfl⟩⟩
  | (x, y, w) :: es, b, s, hx, hy, hw => by
    simp only [List.length_cons] at hx hy hw
    obtain ⟨s', h1, h2, h3, h4, h5, h6⟩ := run_entActs es (b + 1) ⟨s.x.set b x, s.y.set b y, s.w.set b w⟩ (by simp; omega) (by simp; omega) (by simp; omega)
    simp only [List.length_set] at h2 h3 h4
    refine ⟨s', ?_, h2, h3, h4, ?_, ?_⟩
    · simp only [entActs, runActs, stepAct, store_ok (show b < s.w.length by omega), store_ok (show b < s.x.length by omega),
        store_ok (show b < s.y.length by omega), ok_bind]
      exact h1
    · intro i x' y' w' h
      cases i with
      | zero =>
        cases h
        obtain ⟨g1, g2, g3⟩ := h6 b (by omega)
        rw [Nat.add_zero, g1, g2, g3]
        exact ⟨List.getElem?_set_self (by omega), List.getElem?_set_self (by omega), List.getElem?_set_self (by omega)⟩
      | succ i =>
        rw [show b + (i + 1) = b + 1 + i by omega]
        exact h5 i x' y' w' h
    · intro i hi
      simp only [List.length_cons] at hi
      obtain ⟨g1, g2, g3⟩ := h6 i (by omega)
      rw [g1, g2, g3]
      exact ⟨List.getElem?_set_ne (by omega), List.getElem?_set_ne (by omega), List.getElem?_set_ne (by omega)⟩

end Pigo
