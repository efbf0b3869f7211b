import Verif.Lemmas.WeightedFlags2
import Verif.Lemmas.TensorAny

/-!
# Tensors with weights out of arbitrary bytes
-/

namespace Pigo

variable {W : Type} {μ : Mapping} {e : Nat} {ov : Prop}

theorem skipCoords_w {lw : Nat} {wk : WKind W} (hwgt : wk.wgt = true) (hr : Readable μ e) : ∀ (k : Nat) (s : List Byte), View μ e s → AtNum s → s ≠ [] →
    ∃ b s', skipCoords μ lw wk k (rd e s) = .ok (b, rd e s') ∧ s' <:+ s ∧ (b = true → s' ≠ [] ∧ k + s'.length ≤ s.length) ∧ (b = false → s' = [])
  | 0, s, v, ha, hne => ⟨true, s, rfl, List.suffix_refl _, fun _ => ⟨hne, by omega⟩, fun h => by cases h⟩
  | k+1, s, v, ha, hne => by
    have v1 : View μ e (nextIntL s) := v.of_suffix (nextIntL_suffix _)
    rw [skipCoords, if_pos hwgt, moveToNextInt_eq v hr, ok_bind]
    simp only [good_rd v1]
    cases h1 : nextIntL s with
    | nil => exact ⟨false, [], by simp, List.nil_suffix, fun h => (by cases h), fun _ => rfl⟩
    | cons c t =>
      have hlt := nextInt_short ha hne
      rw [h1] at hlt v1
      simp only [List.isEmpty_cons, Bool.not_false, Bool.not_true, Bool.false_eq_true, if_false]
      obtain ⟨b, s', i1, i2, i3, i4⟩ := skipCoords_w hwgt hr k (c :: t) v1 (h1 ▸ atNum_nextInt s) (by simp)
      refine ⟨b, s', i1, i2.trans (h1 ▸ nextIntL_suffix s), fun h => ⟨(i3 h).1, ?_⟩, i4⟩
      have := (i3 h).2
      omega

theorem tensorCount_w {lw : Nat} {wk : WKind W} (hwgt : wk.wgt = true) (hr : Readable μ e) {k : Nat} {s : List Byte} (v : View μ e s) (ha : AtNum s) (hne : s ≠ []) (pos : Nat) :
    ∃ c s', tensorCount μ lw wk k pos (rd e s) = .ok (pos + c, rd e s') ∧ s' <:+ s ∧ s'.length < s.length ∧ AtNum s' ∧ c + s'.length ≤ s.length ∧ c * k + s'.length ≤ s.length := by
  obtain ⟨b, s1, h1, h2, h3, h4⟩ := skipCoords_w (lw := lw) hwgt hr k s v ha hne
  have hpos := List.length_pos_iff.mpr hne
  unfold tensorCount
  rw [h1, ok_bind]
  cases b with
  | false =>
    rw [h4 rfl]
    exact ⟨0, [], rfl, List.nil_suffix, hpos, fun c t h => (by cases h), by simp, by simp⟩
  | true =>
    obtain ⟨g1, g2⟩ := h3 rfl
    have v1 := v.of_suffix h2
    simp only [Bool.not_true, Bool.false_eq_true, if_false]
    rw [moveToEol_eq v1, ok_bind, moveToNextInt_eq (v1.of_suffix (dropWhile_suffix' _ _)) hr, ok_bind]
    have hl : (nextLineL s1).length < s1.length := by
      cases s1 with
      | nil => exact absurd rfl g1
      | cons c t =>
        have : (nextLineL (c :: t)).length ≤ t.length := nextLineL_length
        simp only [List.length_cons]; omega
    exact ⟨1, nextLineL s1, rfl, (nextLineL_suffix s1).trans h2, by omega, atNum_nextLine _, by omega, by omega⟩

theorem tensorCountLoop_w {lw : Nat} {wk : WKind W} (hwgt : wk.wgt = true) (hr : Readable μ e) {k : Nat} : ∀ (n : Nat) (s : List Byte), s.length ≤ n → View μ e s → AtNum s → ∀ pos,
    ∃ c, whileGood (tensorCount μ lw wk k) n pos (rd e s) = .ok (pos + c, rd e []) ∧ c ≤ s.length ∧ c * k ≤ s.length := by
  intro n
  induction n with
  | zero =>
    intro s hs v _ pos
    have : s = [] := List.length_eq_zero_iff.mp (by omega)
    subst this
    exact ⟨0, by simp [whileGood, good_rd v], by simp, by simp⟩
  | succ n ih =>
    intro s hs v ha pos
    cases s with
    | nil => exact ⟨0, by simp [whileGood, good_rd v], by simp, by simp⟩
    | cons c s =>
      obtain ⟨c1, s', i1, i2, i3, i4, i5, i6⟩ := tensorCount_w (lw := lw) (k := k) hwgt hr v ha (by simp) pos
      have hg : (rd e (c :: s)).good = true := by rw [good_rd v]; rfl
      obtain ⟨c2, j1, j2, j3⟩ := ih s' (by simp at hs i3; omega) (v.of_suffix i2) i4 (pos + c1)
      refine ⟨c1 + c2, ?_, by omega, by rw [Nat.add_mul]; omega⟩
      rw [whileGood, if_pos hg, i1, ok_bind]; simp only; rw [j1, Nat.add_assoc]

theorem readCoords_w {lw order pos : Nat} : ∀ (k idx : Nat) (acts : List (TAct W)) (s : List Byte), View μ e s →
    ∃ b acts' s', readCoords μ lw order pos k idx acts (rd e s) = .ok (b, acts', rd e s') ∧ s' <:+ s ∧ (b = false → s' = [])
  | 0, idx, acts, s, v => ⟨true, acts, s, rfl, List.suffix_refl _, fun h => (by cases h)⟩
  | k+1, idx, acts, s, v => by
    obtain ⟨x, s1, h1, e1⟩ := readInt_any lw v
    have suf : s1 <:+ s := by rw [e1]; exact toDigitL_suffix s
    have v1 : View μ e s1 := v.of_suffix suf
    rw [readCoords, h1, ok_bind]
    simp only [good_rd v1]
    cases hs : s1 with
    | nil => exact ⟨false, acts, [], by simp, List.nil_suffix, fun _ => rfl⟩
    | cons c t =>
      rw [hs] at v1 suf
      simp only [List.isEmpty_cons, Bool.not_false, Bool.not_true, Bool.false_eq_true, if_false]
      obtain ⟨b, a', s', i1, i2, i3⟩ := readCoords_w (lw := lw) (order := order) (pos := pos) k (idx + 1) (acts ++ [.setC (pos * order + idx) x]) (c :: t) v1
      exact ⟨b, a', s', i1, i2.trans suf, i3⟩

theorem tensorSet_w {lw : Nat} {wk : WKind W} (hw : SafeW ov wk μ e) (hr : Readable μ e) {k : Nat} {s : List Byte} (v : View μ e s) (hne : s ≠ [])
    (st : Nat × List (TAct W)) :
    (ov ∧ tensorSet μ lw wk k st (rd e s) = .error .overflow) ∨
    ∃ st' s', tensorSet μ lw wk k st (rd e s) = .ok (st', rd e s') ∧ s' <:+ s ∧ s'.length < s.length := by
  obtain ⟨b, a', s1, h1, h2, h3⟩ := readCoords_w (lw := lw) (order := k) (pos := st.1) k 0 st.2 s v
  have hpos := List.length_pos_iff.mpr hne
  have v1 := v.of_suffix h2
  unfold tensorSet
  rw [h1, ok_bind]
  cases b with
  | false => rw [h3 rfl]; exact .inr ⟨(st.1, a'), [], rfl, List.nil_suffix, hpos⟩
  | true =>
    simp only [Bool.not_true, Bool.false_eq_true, if_false]
    rcases hw.read s1 v1 with ⟨ho, h4⟩ | ⟨w, s4, suf4, h4⟩
    · rw [h4]; exact .inl ⟨ho, rfl⟩
    · have v4 := v1.of_suffix suf4
      rw [h4, ok_bind]
      simp only
      rw [moveToEol_eq v4, ok_bind, moveToNextInt_eq (v4.of_suffix (dropWhile_suffix' _ _)) hr]
      refine .inr ⟨_, nextLineL s4, rfl, (nextLineL_suffix s4).trans (suf4.trans h2), ?_⟩
      cases s4 with
      | nil => simpa [nextLineL, nextIntL, toStop] using hpos
      | cons c t =>
        have h5 : (nextLineL (c :: t)).length ≤ t.length := nextLineL_length
        have h6 := (suf4.trans h2).length_le
        simp only [List.length_cons] at h6
        omega

theorem tensorSetLoop_w {lw : Nat} {wk : WKind W} (hw : SafeW ov wk μ e) (hr : Readable μ e) {k : Nat} : ∀ (n : Nat) (s : List Byte), s.length ≤ n → View μ e s → ∀ st,
    (ov ∧ whileGood (tensorSet μ lw wk k) n st (rd e s) = .error .overflow) ∨ ∃ st', whileGood (tensorSet μ lw wk k) n st (rd e s) = .ok (st', rd e []) := by
  intro n
  induction n with
  | zero =>
    intro s hs v st
    have : s = [] := List.length_eq_zero_iff.mp (by omega)
    subst this
    exact .inr ⟨st, by simp [whileGood, good_rd v]⟩
  | succ n ih =>
    intro s hs v st
    cases s with
    | nil => exact .inr ⟨st, by simp [whileGood, good_rd v]⟩
    | cons c s =>
      have hg : (rd e (c :: s)).good = true := by rw [good_rd v]; rfl
      rw [whileGood, if_pos hg]
      rcases tensorSet_w (lw := lw) (k := k) hw hr v (by simp) st with ⟨ho, h⟩ | ⟨st', s', i1, i2, i3⟩
      · rw [h]; exact .inl ⟨ho, rfl⟩
      · rw [i1, ok_bind]
        exact ih s' (by simp at hs i3; omega) (v.of_suffix i2) st'

/-- Number of entries that pass 1 counts in the region of a thread. -/
def cntT (μ : Mapping) (e lw k : Nat) (wk : WKind W) (s : List Byte) (T tid : Nat) : Nat :=
  match tensorCountAll μ lw wk k (rd (e - (startL s T (tid+1)).length) (regL s T tid)) with
  | .ok k => k
  | .error _ => 0

theorem regionT_safe {lw k : Nat} {wk : WKind W} (hwgt : wk.wgt = true) (hw : ∀ e, EndB μ e → SafeW ov wk μ e) {s : List Byte} (v : View μ e s) (he : EndB μ e) {T tid : Nat}
    (ht : tid < T) (offs : List Nat) :
    elRegion μ (rd e s) T tid = .ok (rd (e - (startL s T (tid+1)).length) (regL s T tid)) ∧
    tensorCountAll μ lw wk k (rd (e - (startL s T (tid+1)).length) (regL s T tid)) = .ok (cntT μ e lw k wk s T tid) ∧
    cntT μ e lw k wk s T tid + (startL s T (tid+1)).length ≤ (startL s T tid).length ∧
    cntT μ e lw k wk s T tid * k + (startL s T (tid+1)).length ≤ (startL s T tid).length ∧
    ((ov ∧ tensorSetAll μ lw wk k offs (tid, rd (e - (startL s T (tid+1)).length) (regL s T tid)) = .error .overflow) ∨
      ∃ st, tensorSetAll μ lw wk k offs (tid, rd (e - (startL s T (tid+1)).length) (regL s T tid)) = .ok st) := by
  obtain ⟨R, h1, h2, h3, h4⟩ := elRegion_any v he.readable ht
  have hR : regL s T tid = R := by
    unfold regL
    rw [h1]
    simp
  have hA := atNum_regL s T tid
  have hend := region_end v he ht
  rw [hR] at hA
  obtain ⟨c, i1, i2, i3⟩ := tensorCountLoop_w (lw := lw) (k := k) hwgt h4 R.length R (Nat.le_refl _) h3 hA 0
  have hc : tensorCountAll μ lw wk k (rd (e - (startL s T (tid+1)).length) R) = .ok c := by
    unfold tensorCountAll; rw [h3.sub, i1]; simp
  have hk : cntT μ e lw k wk s T tid = c := by unfold cntT; rw [hR, hc]
  rw [hk, hR]
  refine ⟨h2, hc, by rw [h1, List.length_append]; omega, by rw [h1, List.length_append]; omega, ?_⟩
  unfold tensorSetAll
  simp only [h3.sub]
  rcases tensorSetLoop_w (lw := lw) (k := k) (hw _ hend) h4 R.length R (Nat.le_refl _) h3 (startOf offs tid, []) with ⟨ho, h⟩ | ⟨st, h⟩
  · rw [h]; exact .inl ⟨ho, rfl⟩
  · rw [h]; exact .inr ⟨_, rfl⟩

/-- The plan of `Tensor::read_el_` on arbitrary bytes, with weights. -/
theorem tensorPlan_safe {lw ow k T : Nat} {wk : WKind W} (hwgt : wk.wgt = true) (hw : ∀ e, EndB μ e → SafeW ov wk μ e) {s : List Byte} (v : View μ e s) (he : EndB μ e) (hT : 0 < T)
    (ho : tensorOrder μ ow true (rd e s) = .ok k) (hfit : s.length < 2 ^ ow) :
    (ov ∧ tensorPlan μ lw ow wk T (rd e s) = .error .overflow) ∨
    ∃ p, tensorPlan μ lw ow wk T (rd e s) = .ok p ∧ p.order = k ∧ p.m ≤ s.length ∧ p.m * k ≤ s.length := by
  have hreg : mapE (elRegion μ (rd e s) T) (List.range T) =
      .ok ((List.range T).map (fun tid => rd (e - (startL s T (tid+1)).length) (regL s T tid))) :=
    mapE_ok _ _ _ (fun tid ht => (regionT_safe (lw := lw) (k := k) hwgt hw v he (List.mem_range.mp ht) []).1)
  have hcnt : mapE (tensorCountAll μ lw wk k)
      ((List.range T).map (fun tid => rd (e - (startL s T (tid+1)).length) (regL s T tid))) =
      .ok ((List.range T).map (cntT μ e lw k wk s T)) := by
    have : ∀ l : List Nat, (∀ tid ∈ l, tid < T) → mapE (tensorCountAll μ lw wk k)
      (l.map (fun tid => rd (e - (startL s T (tid+1)).length) (regL s T tid))) = .ok (l.map (cntT μ e lw k wk s T)) := by
      intro l
      induction l with
      | nil => intro _; rfl
      | cons a l ih =>
        intro h
        have ha := (regionT_safe (lw := lw) (k := k) hwgt hw v he (h a (List.mem_cons_self ..)) []).2.1
        simp only [List.map_cons, mapE, ha, ok_bind, ih (fun t ht => h t (List.mem_cons_of_mem _ ht))]
    exact this _ (fun t ht => List.mem_range.mp ht)
  have hsum : ∀ n, n ≤ T → ((List.range n).map (cntT μ e lw k wk s T)).sum + (startL s T n).length ≤ s.length ∧
      ((List.range n).map (cntT μ e lw k wk s T)).sum * k + (startL s T n).length ≤ s.length := by
    intro n
    induction n with
    | zero =>
      intro _
      have : (firstIntL s).length ≤ s.length := (toStop_suffix isDigit false s).length_le
      simpa [startL] using this
    | succ n ih =>
      intro hk
      have ih := ih (by omega)
      have h1 := (regionT_safe (lw := lw) (k := k) hwgt hw v he (tid := n) (T := T) (by omega) []).2.2.1
      have h2 := (regionT_safe (lw := lw) (k := k) hwgt hw v he (tid := n) (T := T) (by omega) []).2.2.2.1
      rw [List.range_succ, List.map_append, List.sum_append]
      simp only [List.map_cons, List.map_nil, List.sum_cons, List.sum_nil, Nat.add_zero, Nat.add_mul]
      omega
  have hlen : ((List.range T).map (cntT μ e lw k wk s T)).length = T := by simp
  have hM : (prefixSums 0 ((List.range T).map (cntT μ e lw k wk s T))).getD (T - 1) 0 = ((List.range T).map (cntT μ e lw k wk s T)).sum := by
    rw [prefixSums_getD _ _ _ (by rw [hlen]; omega), List.take_of_length_le (by rw [hlen]; omega)]
    omega
  obtain ⟨b1, b2⟩ := hsum T (Nat.le_refl _)
  unfold tensorPlan
  rw [hwgt, ho, ok_bind, hreg, ok_bind, hcnt, ok_bind, zip_map_self]
  rcases mapE_over (ov := ov) (tensorSetAll μ lw wk k (prefixSums 0 ((List.range T).map (cntT μ e lw k wk s T))))
      ((List.range T).map (fun tid => (tid, rd (e - (startL s T (tid+1)).length) (regL s T tid)))) (by
        intro a ha
        obtain ⟨tid, ht, rfl⟩ := List.mem_map.mp ha
        exact (regionT_safe hwgt hw v he (List.mem_range.mp ht) _).2.2.2.2) with ⟨ho, h⟩ | ⟨sts, h⟩
  · simp only [h]; exact .inl ⟨ho, rfl⟩
  · simp only [h]
    refine .inr ⟨_, rfl, rfl, ?_, ?_⟩
    · show _ % _ ≤ _
      rw [hM]
      exact Nat.le_trans (Nat.mod_le _ _) (by omega)
    · show _ % _ * _ ≤ _
      rw [hM, Nat.mod_eq_of_lt (by omega)]
      omega

/-- A store inside of the arrays. -/
def fitsT (mc mw : Nat) : TAct W → Prop
  | .setC i _ => i < mc
  | .setW i _ => i < mw

theorem runT_fits {mc mw : Nat} : ∀ (acts : List (TAct W)) (s : TMem W), s.c.length = mc → s.w.length = mw →
    ((∀ a ∈ acts, fitsT mc mw a) → ∃ s', runActs stepT acts s = .ok s' ∧ s'.c.length = mc ∧ s'.w.length = mw) ∧
    ((∃ a ∈ acts, ¬ fitsT mc mw a) → runActs stepT acts s = .error .oob)
  | [], s, hx, hw => ⟨fun _ => ⟨s, rfl, hx, hw⟩, fun ⟨a, h, _⟩ => by cases h⟩
  | a :: acts, s, hx, hw => by
    have key : (fitsT mc mw a ∧ ∃ s1, stepT a s = .ok s1 ∧ s1.c.length = mc ∧ s1.w.length = mw) ∨ (¬ fitsT mc mw a ∧ stepT a s = .error .oob) := by
      cases a with
      | setC i v =>
        by_cases h : i < mc
        · exact .inl ⟨h, { s with c := s.c.set i v }, by simp only [stepT, store_ok (show i < s.c.length by omega), ok_bind], by simpa using hx, hw⟩
        · exact .inr ⟨h, by simp only [stepT, store_bad (show s.c.length ≤ i by omega)]; rfl⟩
      | setW i v =>
        by_cases h : i < mw
        · exact .inl ⟨h, { s with w := s.w.set i v }, by simp only [stepT, store_ok (show i < s.w.length by omega), ok_bind], hx, by simpa using hw⟩
        · exact .inr ⟨h, by simp only [stepT, store_bad (show s.w.length ≤ i by omega)]; rfl⟩
    rw [runActs]
    rcases key with ⟨hf, s1, e1, hx1, hw1⟩ | ⟨hf, e1⟩
    · obtain ⟨i1, i2⟩ := runT_fits acts s1 hx1 hw1
      rw [e1, ok_bind]
      refine ⟨fun h => i1 (fun b hb => h b (List.mem_cons_of_mem _ hb)), fun ⟨b, hb, hn⟩ => i2 ?_⟩
      rcases List.mem_cons.mp hb with rfl | hb
      · exact absurd hf hn
      · exact ⟨b, hb, hn⟩
    · rw [e1]
      exact ⟨fun h => absurd (h a (List.mem_cons_self ..)) hf, fun _ => rfl⟩

/-- Loading a tensor with weights out of arbitrary bytes: all schedules end alike. -/
theorem readTensorEl_uniform {lw ow k T : Nat} {wk : WKind W} (hwgt : wk.wgt = true) (hw : ∀ e, EndB μ e → SafeW ov wk μ e) {s : List Byte} (v : View μ e s) (he : EndB μ e)
    (hT : 0 < T) (ho : tensorOrder μ ow true (rd e s) = .ok k) (hfit : s.length < 2 ^ ow) :
    (ov ∧ ∀ out, (readTensorEl μ lw ow wk T (rd e s)).Out out → out = .error .overflow) ∨
    (∀ out, (readTensorEl μ lw ow wk T (rd e s)).Out out → out = .error .oob) ∨
    ∃ m, m ≤ s.length ∧ m * k ≤ s.length ∧ (readTensorEl μ lw ow wk T (rd e s)).All (fun t => t.order = k ∧ t.m = m ∧ t.c.length = k * m ∧ t.w.length = m) := by
  unfold readTensorEl
  rcases tensorPlan_safe (lw := lw) hwgt hw v he hT ho hfit with ⟨h0, h⟩ | ⟨p, h, hk, hm, hmk⟩
  · left
    refine ⟨h0, ?_⟩
    rintro out ⟨_, rfl, h1⟩
    rw [h] at h1
    exact h1
  · right
    subst hk
    have hsz : inOrd ow (p.order * p.m) = p.order * p.m := inOrd_lt (by rw [Nat.mul_comm]; omega)
    by_cases hf : ∀ l ∈ p.threads, ∀ a ∈ l, fitsT (p.order * p.m) p.m a
    · right
      refine ⟨p.m, hm, hmk, ?_⟩
      refine R.All.bind (R.All.lift h rfl) (fun p' hp => ?_)
      subst hp
      refine R.All.bind R.All.any (fun jc _ => R.All.bind R.All.any (fun jw _ => ?_))
      refine R.All.bind (P := fun mem => mem.c.length = p.order * p.m ∧ mem.w.length = p.m) (R.All.par (fun sched hs => ?_)) (fun mem hmem => ?_)
      · obtain ⟨s', e1, a1, a2⟩ := (runT_fits (mc := p.order * p.m) (mw := p.m) sched { c := alloc jc (inOrd ow (p.order * p.m)), w := if wk.wgt then alloc jw p.m else [] }
          (by simp [alloc, hsz]) (by simp [alloc, hwgt])).1 (fun a ha => by obtain ⟨l, hl, hal⟩ := hs.mem a ha; exact hf l hl a hal)
        exact ⟨s', e1, a1, a2⟩
      · exact R.All.pure ⟨rfl, rfl, hmem.1, hmem.2⟩
    · left
      have h' : ∃ l ∈ p.threads, ∃ a ∈ l, ¬ fitsT (p.order * p.m) p.m a :=
        Classical.byContradiction fun hn => hf fun l hl a ha => Classical.byContradiction fun hf => hn ⟨l, hl, a, ha, hf⟩
      obtain ⟨l, hl, a, ha, hn⟩ := h'
      rintro out ⟨_, rfl, h1⟩
      rw [h] at h1
      obtain ⟨_, ⟨jc, _, rfl⟩, h1⟩ := h1
      obtain ⟨_, ⟨jw, _, rfl⟩, h1⟩ := h1
      obtain ⟨o, ⟨sched, hs, rfl⟩, h1⟩ := h1
      have hmem : a ∈ sched := hs.perm.mem_iff.mpr (List.mem_flatten.mpr ⟨l, hl, ha⟩)
      rw [(runT_fits (mc := p.order * p.m) (mw := p.m) sched { c := alloc jc (inOrd ow (p.order * p.m)), w := if wk.wgt then alloc jw p.m else [] }
          (by simp [alloc, hsz]) (by simp [alloc, hwgt])).2 ⟨a, hmem, hn⟩] at h1
      exact h1

end Pigo
