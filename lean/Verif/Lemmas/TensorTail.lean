import Verif.Lemmas.TensorAny

/-!
# Tensors out of a file that does not end in a newline

The regions of the threads when the text after the last newline is no longer blank.
-/

namespace Pigo

variable {W : Type} {μ : Mapping} {e : Nat}

section
variable {ls : List (List Byte)} {τ : List Byte}

/-- Where a thread starts whose first line is `J`. -/
def startAt (ls : List (List Byte)) (τ : List Byte) (J : Nat) : List Byte := if J ≤ ls.length then firstIntL (text (ls.drop J) ++ τ) else []

theorem startL_tail (hls : NoNl ls) (hτ : nl ∉ τ) (T tid : Nat) : startL (text ls ++ τ) T tid = startAt ls τ (lineOf (text ls ++ τ) T tid) := by
  unfold startL startAt lineOf
  by_cases h : tid = 0
  · simp [h]
  · rw [if_neg h, if_neg h]
    have := split_point ls τ hls hτ (cut (text ls ++ τ).length T tid)
    simp only at this
    unfold nextLineL
    rw [this]
    split
    · rename_i hj
      rw [if_pos (by omega), nextIntL_nl]
    · rename_i hj
      rw [if_neg (by omega)]; rfl

theorem regL_eq {s R : List Byte} {T tid : Nat} (h : startL s T tid = R ++ startL s T (tid+1)) : regL s T tid = R := by
  unfold regL; rw [h]; simp

/-- The part of a thread: lines, the last of them being the text after the last newline or not. -/
theorem region_tail (hls : NoNl ls) (hτ : nl ∉ τ) (T tid : Nat) :
    (∃ g, firstIntL g = [] ∧ (∀ l ∈ segLines (text ls ++ τ) (ls ++ [τ]) T tid, l ∈ ls) ∧
      regL (text ls ++ τ) T tid = firstIntL (text (segLines (text ls ++ τ) (ls ++ [τ]) T tid) ++ g)) ∨
    (∃ L, segLines (text ls ++ τ) (ls ++ [τ]) T tid = L ++ [τ] ∧ (∀ l ∈ L, l ∈ ls) ∧
      regL (text ls ++ τ) T tid = firstIntL (text L ++ τ) ∧ startL (text ls ++ τ) T (tid+1) = []) := by
  have hJ := lineOf_mono (text ls ++ τ) T tid
  have h0 := startL_tail hls hτ T tid
  have h1 := startL_tail hls hτ T (tid+1)
  unfold segLines
  generalize lineOf (text ls ++ τ) T tid = J at *
  generalize lineOf (text ls ++ τ) T (tid+1) = J' at *
  by_cases c1 : J' ≤ ls.length
  · left
    have hseg : ((ls ++ [τ]).drop J).take (J' - J) = (ls.drop J).take (J' - J) := by
      rw [List.drop_append_of_le_length (by omega), List.take_append_of_le_length (by rw [List.length_drop]; omega)]
    have hdrop : ls.drop J = (ls.drop J).take (J' - J) ++ ls.drop J' := by
      conv => lhs; rw [← List.take_append_drop (J' - J) (ls.drop J)]
      rw [List.drop_drop]; congr 2; omega
    refine ⟨garb (text (ls.drop J') ++ τ), (garb_spec _).2, ?_, ?_⟩
    · rw [hseg]; intro l hl; exact List.mem_of_mem_drop (List.mem_of_mem_take hl)
    · rw [hseg]
      apply regL_eq
      rw [h0, h1, startAt, startAt, if_pos c1, if_pos (by omega)]
      have := region_garb ((ls.drop J).take (J' - J)) (text (ls.drop J') ++ τ)
        (fun l hl => hls l (List.mem_of_mem_drop (List.mem_of_mem_take hl)))
      rw [← this, ← List.append_assoc, ← text_append, ← hdrop]
  · rw [startAt, if_neg c1] at h1
    by_cases c2 : J ≤ ls.length
    · right
      refine ⟨ls.drop J, ?_, fun l hl => List.mem_of_mem_drop hl, ?_, h1⟩
      · rw [List.drop_append_of_le_length c2, List.take_of_length_le]
        simp; omega
      · apply regL_eq
        rw [h0, h1, startAt, if_pos c2, List.append_nil]
    · left
      have : (ls ++ [τ]).drop J = [] := List.drop_of_length_le (by simp; omega)
      rw [this, List.take_nil]
      refine ⟨[], rfl, by simp, ?_⟩
      apply regL_eq
      rw [h0, h1, startAt, if_neg c2]; rfl

theorem seg_all_tail (hls : NoNl ls) (T : Nat) (hT : 0 < T) : ((List.range T).map (segLines (text ls ++ τ) (ls ++ [τ]) T)).flatten = ls ++ [τ] := by
  rw [seg_flatten]
  apply List.take_of_length_le
  unfold lineOf
  rw [if_neg (by omega), cut_last _ _ hT, List.take_length, count_text ls τ hls]
  simp

end

/-! ## The loops -/

/-- What the body of the loop does with the text after the last newline. -/
def TailOk' {σ E : Type} (body : σ → Reader → M (σ × Reader)) (upd : σ → E → σ) (ent : List Byte → Option E) (e : Nat) (τ : List Byte) : Prop :=
  match ent τ with
  | none => firstIntL τ = [] ∨ ∀ s, body s (rd e (firstIntL τ)) = .ok (s, rd e [])
  | some en => firstIntL τ ≠ [] ∧ ∀ s, body s (rd e (firstIntL τ)) = .ok (upd s en, rd e [])

theorem while_nil {σ : Type} {body : σ → Reader → M (σ × Reader)} (v : View μ e []) (n : Nat) (s : σ) : whileGood body n s (rd e []) = .ok (s, rd e []) := by
  cases n <;> simp [whileGood, good_rd v]

theorem while_tail {σ E : Type} {body : σ → Reader → M (σ × Reader)} {upd : σ → E → σ} {ent : List Byte → Option E} {τ : List Byte} (hr : Readable μ e)
    (hτ : TailOk' body upd ent e τ) : ∀ (ls : List (List Byte)) (n : Nat) (s : σ), (∀ l ∈ ls, StepOk μ body upd ent l) → View μ e (firstIntL (text ls ++ τ)) →
    (firstIntL (text ls ++ τ)).length ≤ n →
    whileGood body n s (rd e (firstIntL (text ls ++ τ))) = .ok (((ls ++ [τ]).filterMap ent).foldl upd s, rd e [])
  | [], n, s, _, v, hn => by
    rw [text_nil, List.nil_append] at v hn ⊢
    rw [List.nil_append, List.filterMap_cons, List.filterMap_nil]
    unfold TailOk' at hτ
    have v0 : View μ e [] := v.of_suffix List.nil_suffix
    have step : ∀ s', firstIntL τ ≠ [] → body s (rd e (firstIntL τ)) = .ok (s', rd e []) → whileGood body n s (rd e (firstIntL τ)) = .ok (s', rd e []) := by
      intro s' hne hb
      obtain ⟨n, rfl⟩ : ∃ q, n = q + 1 := by
        cases n with
        | zero => exact absurd (List.length_eq_zero_iff.mp (Nat.le_zero.mp hn)) hne
        | succ n => exact ⟨n, rfl⟩
      have : (firstIntL τ).isEmpty = false := by simpa using hne
      rw [whileGood, good_rd v, this]
      simp only [Bool.not_false, if_true]
      rw [hb, ok_bind]
      exact while_nil v0 n s'
    cases he : ent τ with
    | none =>
      rw [he] at hτ
      simp only at hτ ⊢
      rw [List.foldl_nil]
      by_cases hne : firstIntL τ = []
      · rw [hne]; exact while_nil v0 n s
      · exact step s hne ((hτ.resolve_left hne) s)
    | some en =>
      rw [he] at hτ
      exact step _ hτ.1 (hτ.2 s)
  | l :: ls, n, s, h, v, hn => by
    have hl := h l (List.mem_cons_self ..)
    have hls := fun l' hl' => h l' (List.mem_cons_of_mem _ hl')
    have hfirst : firstIntL (text (l :: ls) ++ τ) = if firstIntL l = [] then firstIntL (text ls ++ τ) else firstIntL l ++ nl :: (text ls ++ τ) := by
      rw [text_cons, List.append_assoc, List.cons_append]
      exact toStop_line _ isDigit_nl l _ hl.1
    cases he : ent l with
    | none =>
      have h2 := hl.2
      rw [he] at h2
      rw [hfirst, if_pos h2] at v hn ⊢
      rw [List.cons_append, List.filterMap_cons, he]
      exact while_tail hr hτ ls n s hls v hn
    | some en =>
      have h2 := hl.2
      rw [he] at h2
      obtain ⟨hne, hstep⟩ := h2
      rw [hfirst, if_neg hne] at v hn ⊢
      have v' : View μ e (firstIntL (text ls ++ τ)) := v.append.tail.of_suffix (toStop_suffix _ _ _)
      have hlen : (firstIntL (text ls ++ τ)).length ≤ (text ls ++ τ).length := (toStop_suffix isDigit false (text ls ++ τ)).length_le
      rw [List.length_append, List.length_cons] at hn
      obtain ⟨n, rfl⟩ : ∃ q, n = q + 1 := ⟨n - 1, by omega⟩
      rw [whileGood, good_nl v]
      simp only [if_true]
      rw [hstep e (text ls ++ τ) s hr v, ok_bind, List.cons_append, List.filterMap_cons, he]
      exact while_tail hr hτ ls n _ hls v' (by omega)

/-- The plan of `Tensor::read_el_` on a file with text after the last newline. -/
theorem tensorPlan_tail {lw ow k : Nat} {ls : List (List Byte)} {τ : List Byte} {wk : WKind W} {ent : List Byte → Option (List Nat × W)} {T : Nat} (hT : 0 < T)
    (hv : View μ e (text ls ++ τ)) (hr : Readable μ e) (hnl : NoNl ls) (hτn : nl ∉ τ) (hls : ∀ l ∈ ls, TEntOk lw wk k ent l)
    (hc : TailOk' (tensorCount μ lw wk k) (fun c _ => c + 1) ent e τ)
    (hs : TailOk' (tensorSet μ lw wk k) (fun st en => (st.1 + 1, st.2 ++ tActs lw wk.wgt k st.1 en)) ent e τ)
    (ho : tensorOrder μ ow wk.wgt (rd e (text ls ++ τ)) = .ok k) :
    ∃ gs : List (List (List Nat × W)), gs.flatten = (ls ++ [τ]).filterMap ent ∧
      tensorPlan μ lw ow wk T (rd e (text ls ++ τ)) = .ok
        { order := k, m := ((ls ++ [τ]).filterMap ent).length % 2 ^ ow, threads := tThreads lw wk.wgt k 0 gs } := by
  let seg := fun tid => (segLines (text ls ++ τ) (ls ++ [τ]) T tid).filterMap ent
  have hseg : ((List.range T).map seg).flatten = (ls ++ [τ]).filterMap ent := by
    have : (List.range T).map seg =
        ((List.range T).map (segLines (text ls ++ τ) (ls ++ [τ]) T)).map (List.filterMap ent) := by
      rw [List.map_map]; rfl
    rw [this, flatten_filterMap, seg_all_tail hnl T hT]
  refine ⟨(List.range T).map seg, hseg, ?_⟩
  have hreg : mapE (elRegion μ (rd e (text ls ++ τ)) T) (List.range T) =
      .ok ((List.range T).map (fun tid => rd (e - (startL (text ls ++ τ) T (tid+1)).length) (regL (text ls ++ τ) T tid))) :=
    mapE_ok _ _ _ (fun tid ht => by
      obtain ⟨R, h1, h2, _⟩ := elRegion_any hv hr (List.mem_range.mp ht)
      rw [h2, regL_eq h1])
  have hvr : ∀ tid, tid < T → View μ (e - (startL (text ls ++ τ) T (tid+1)).length) (regL (text ls ++ τ) T tid) ∧
      Readable μ (e - (startL (text ls ++ τ) T (tid+1)).length) := by
    intro tid ht
    obtain ⟨R, h1, _, h3, h4⟩ := elRegion_any hv hr ht
    rw [regL_eq h1]; exact ⟨h3, h4⟩
  have loop : ∀ {σ : Type} (body : σ → Reader → M (σ × Reader)) (upd : σ → (List Nat × W) → σ), (∀ l ∈ ls, StepOk μ body upd ent l) → TailOk' body upd ent e τ →
      ∀ tid, tid < T → ∀ s, ∃ r, whileGood body ((regL (text ls ++ τ) T tid).length) s (rd (e - (startL (text ls ++ τ) T (tid+1)).length) (regL (text ls ++ τ) T tid)) =
        .ok ((seg tid).foldl upd s, r) := by
    intro σ body upd h1 h2 tid ht s
    obtain ⟨v', r'⟩ := hvr tid ht
    rcases region_tail hnl hτn T tid with ⟨g, hg, hmem, hR⟩ | ⟨L, hL, hmem, hR, hE⟩
    · rw [hR] at v' ⊢
      exact ⟨_, while_region r' hg _ _ s (fun l hl => h1 l (hmem l hl)) v' (Nat.le_refl _)⟩
    · rw [hE, List.length_nil, Nat.sub_zero] at v' r' ⊢
      rw [hR] at v' ⊢
      refine ⟨rd e [], ?_⟩
      rw [while_tail r' h2 L _ s (fun l hl => h1 l (hmem l hl)) v' (Nat.le_refl _)]
      simp only [seg, hL]
  have hcount : mapE (tensorCountAll μ lw wk k) ((List.range T).map (fun tid => rd (e - (startL (text ls ++ τ) T (tid+1)).length) (regL (text ls ++ τ) T tid))) =
      .ok ((List.range T).map (fun tid => (seg tid).length)) := by
    apply mapE_map
    intro tid ht
    obtain ⟨v', r'⟩ := hvr tid (List.mem_range.mp ht)
    obtain ⟨r, h⟩ := loop _ _ (fun l hl => (hls l hl).count (μ := μ)) hc tid (List.mem_range.mp ht) 0
    rw [tensorCountAll, v'.sub, h, ok_bind, foldl_count, Nat.zero_add]
  have hset : mapE (tensorSetAll μ lw wk k (prefixSums 0 ((List.range T).map (fun tid => (seg tid).length)))) ((List.range T).zip
        ((List.range T).map (fun tid => rd (e - (startL (text ls ++ τ) T (tid+1)).length) (regL (text ls ++ τ) T tid)))) =
      .ok ((List.range T).map (fun tid => tActsOf lw wk.wgt k (((List.range tid).map seg).flatten).length (seg tid))) := by
    rw [zip_map_self]
    apply mapE_map
    intro tid ht
    have htT := List.mem_range.mp ht
    obtain ⟨v', r'⟩ := hvr tid htT
    have hstart : startOf (prefixSums 0 ((List.range T).map (fun tid => (seg tid).length))) tid = (((List.range tid).map seg).flatten).length := by
      rw [startOf_eq _ _ (by simp; omega), ← List.map_take, List.take_range, Nat.min_eq_left (by omega)]
      exact length_range seg tid
    obtain ⟨r, h⟩ := loop _ _ (fun l hl => (hls l hl).set (μ := μ)) hs tid htT
      (((((List.range tid).map seg).flatten).length, []) : Nat × List (TAct W))
    rw [tensorSetAll]
    simp only
    rw [v'.sub, hstart, h, ok_bind, foldl_tActs]
    simp [seg]
  unfold tensorPlan
  simp only [ho, ok_bind, hreg, hcount, hset]
  congr 2
  · rw [prefixSums_getD _ _ _ (by simp; omega)]
    rw [show T - 1 + 1 = T by omega, List.take_of_length_le (by simp), ← hseg, length_range, Nat.zero_add]
  · have := tThreads_eq_map lw wk.wgt k seg T 0 0
    rw [← List.range_eq_range'] at this
    rw [this]
    apply List.map_congr_left
    intro t _
    simp only [Nat.sub_zero, Nat.zero_add, ← List.range_eq_range']

/-- The stores of a plan made of entries. -/
theorem execT_of_plan {lw ow k : Nat} {wk : WKind W} {T : Nat} {r : Reader} {es : List (List Nat × W)} {gs : List (List (List Nat × W))} (hgs : gs.flatten = es)
    (hplan : tensorPlan μ lw ow wk T r = .ok { order := k, m := es.length % 2 ^ ow, threads := tThreads lw wk.wgt k 0 gs })
    (hlen : ∀ en ∈ es, en.1.length = k) (hm : es.length < 2 ^ ow) (hkm : k * es.length < 2 ^ ow) :
    (readTensorEl μ lw ow wk T r).All (fun t =>
      t = { c := es.flatMap (fun en => en.1.map (· % 2 ^ lw)), w := if wk.wgt then es.map (fun en => en.2) else [], order := k, m := es.length }) := by
  have hlen' : ∀ g ∈ gs, ∀ en ∈ g, en.1.length = k := by
    intro g hg en hen
    exact hlen en (by rw [← hgs]; exact List.mem_flatten.mpr ⟨g, hg, hen⟩)
  unfold readTensorEl
  refine R.All.bind (R.All.lift hplan rfl) (fun p hp => ?_)
  subst hp
  refine R.All.bind R.All.any (fun jc _ => R.All.bind R.All.any (fun jw _ => ?_))
  refine R.All.bind (P := fun mem => mem = { c := es.flatMap (fun en => en.1.map (· % 2 ^ lw)), w := if wk.wgt then es.map (fun en => en.2) else [] })
    (R.All.par (fun sched hs => ⟨_, ?_, rfl⟩)) (fun mem hmem => ?_)
  · simp only at hs ⊢
    rw [interleave_eq_flatten stepT hs (tThreads_commute hlen'), tThreads_flatten, hgs, Nat.mod_eq_of_lt hm, inOrd_lt hkm]
    have := run_tActsOf (lw := lw) (b := wk.wgt) es [] (alloc jc (k * es.length)) [] (if wk.wgt then alloc jw es.length else []) 0 hlen
      (by simp) (by simp) (by simp [alloc, Nat.mul_comm]) (by intro hb; simp [hb, alloc])
    rw [List.nil_append, List.nil_append] at this
    rw [this]
    congr 2
    · rw [List.nil_append, List.drop_of_length_le (by simp [alloc, Nat.mul_comm]), List.append_nil]
    · cases wk.wgt <;> simp [alloc]
  · subst hmem
    rw [Nat.mod_eq_of_lt hm]
    exact R.All.pure rfl

/-! ## Kinds of last lines -/

theorem takeWhile_all_digits {s : List Byte} (h : ∀ b ∈ s, isDigit b = true) : s.dropWhile isDigit = [] := by
  apply dropWhile_nil
  intro x hx
  exact h x hx

/-- A lone number behind the last newline is not counted and not stored. -/
theorem lone_count {lw k : Nat} {wk : WKind W} {τ : List Byte} (hk : 0 < k) (hr : Readable μ e) (v : View μ e τ) (hd : ∀ b ∈ firstIntL τ, isDigit b = true)
    {ent : List Byte → Option (List Nat × W)} (he : ent τ = none) :
    TailOk' (tensorCount μ lw wk k) (fun c _ => c + 1) ent e τ ∧
    TailOk' (tensorSet μ lw wk k) (fun st en => (st.1 + 1, st.2 ++ tActs lw wk.wgt k st.1 en)) ent e τ := by
  obtain ⟨k, rfl⟩ : ∃ q, k = q + 1 := ⟨k - 1, by omega⟩
  unfold TailOk'
  rw [he]
  simp only
  have v1 : View μ e (firstIntL τ) := v.of_suffix (toStop_suffix _ _ _)
  have v0 : View μ e [] := v.of_suffix List.nil_suffix
  have hnd : (firstIntL τ).dropWhile isDigit = [] := takeWhile_all_digits hd
  have hnext : nextIntL (firstIntL τ) = [] := by
    unfold nextIntL; rw [hnd]; rfl
  have htd : (toDigitL (firstIntL τ)).dropWhile isDigit = [] := by
    apply dropWhile_nil
    intro b hb
    exact hd b ((dropWhile_suffix' _ _).subset hb)
  refine ⟨.inr fun s => ?_, .inr fun s => ?_⟩
  · rw [tensorCount, skipCoords]
    cases hw : wk.wgt with
    | true =>
      simp only [if_true, moveToNextInt_eq v1 hr, hnext, ok_bind, good_rd v0]
      simp
    | false =>
      simp only [Bool.false_eq_true, if_false, readInt_wrapU lw v1, htd, ok_bind, good_rd v0]
      simp
  · rw [tensorSet, readCoords]
    simp only [readInt_wrapU lw v1, htd, ok_bind, good_rd v0]
    simp

/-! ### A complete line with a weight -/

theorem CoordsAt.stop {lw : Nat} : ∀ {xs : List Nat} {u tail : List Byte}, xs ≠ [] → CoordsAt lw xs u tail → tail.dropWhile isDigit = tail
  | [], _, _, h, _ => absurd rfl h
  | [_], u, tail, _, h => by
    have h2 : (firstIntL u).dropWhile isDigit = tail := h.2.2
    rw [← h2]
    cases hd : (firstIntL u).dropWhile isDigit with
    | nil => rfl
    | cons c t =>
      have := List.head?_dropWhile_not (p := isDigit) (l := firstIntL u)
      rw [hd] at this
      simp only [List.head?_cons] at this
      rw [List.dropWhile_cons]
      simp [this]
  | _ :: y :: ys, u, tail, _, h => CoordsAt.stop (by simp) h.2.2

theorem skipCoords_end {lw : Nat} {wk : WKind W} (hw : wk.wgt = true) (hr : Readable μ e) : ∀ {xs : List Nat} {u tail : List Byte}, CoordsAt lw xs u tail → firstIntL tail ≠ [] →
    View μ e u → skipCoords μ lw wk xs.length (rd e (firstIntL u)) = .ok (true, rd e (firstIntL tail))
  | [], u, tail, h, _, _ => by
    have h : u = tail := h
    subst h; rfl
  | x :: xs, u, tail, h, ht, v => by
    have v1 : View μ e (firstIntL u) := v.of_suffix (toStop_suffix _ _ _)
    have v2 : View μ e ((firstIntL u).dropWhile isDigit) := v1.of_suffix (dropWhile_suffix' _ _)
    have v3 : View μ e (nextIntL (firstIntL u)) := v2.of_suffix (toStop_suffix _ _ _)
    have hne : nextIntL (firstIntL u) ≠ [] := by
      cases xs with
      | nil =>
        have h2 : (firstIntL u).dropWhile isDigit = tail := h.2.2
        unfold nextIntL; rw [h2]; exact ht
      | cons y ys => exact h.2.2.1
    have hem : (nextIntL (firstIntL u)).isEmpty = false := by simpa using hne
    rw [List.length_cons, skipCoords, if_pos hw, moveToNextInt_eq v1 hr]
    simp only [ok_bind, good_rd v3, hem, Bool.not_false, Bool.not_true, Bool.false_eq_true, if_false]
    exact skipCoords_end hw hr h.2.2 ht v2

theorem readCoords_end {lw order pos : Nat} : ∀ {xs : List Nat} {u tail : List Byte} {idx : Nat} {acts : List (TAct W)}, nl ∉ u → CoordsAt lw xs u tail → tail ≠ [] →
    View μ e u → readCoords μ lw order pos xs.length idx acts (rd e u) =
      .ok (true, acts ++ coordActs (pos * order + idx) (xs.map (· % 2 ^ lw)), rd e tail)
  | [], u, tail, idx, acts, _, h, _, _ => by
    have h : u = tail := h
    subst h
    simp [readCoords, coordActs]
  | x :: xs, u, tail, idx, acts, hn, h, ht, v => by
    have n1 := not_mem_firstInt hn
    have v1 : View μ e (firstIntL u) := v.of_suffix (toStop_suffix _ _ _)
    have n2 : nl ∉ (firstIntL u).dropWhile isDigit := not_mem_dropWhile _ n1
    have v2 : View μ e ((firstIntL u).dropWhile isDigit) := v1.of_suffix (dropWhile_suffix' _ _)
    have hem : ((firstIntL u).dropWhile isDigit).isEmpty = false := by
      cases hd : (firstIntL u).dropWhile isDigit with
      | nil =>
        have := h.2.2.suffix
        rw [hd] at this
        exact absurd (List.suffix_nil.mp this) ht
      | cons c t => rfl
    rw [List.length_cons, readCoords, readInt_wrapU lw v, toDigit_line hn h.1]
    simp only [ok_bind, good_rd v2, hem, Bool.not_false, Bool.not_true, Bool.false_eq_true, if_false]
    rw [readCoords_end n2 h.2.2 ht v2, ← h.2.1]
    simp [coordActs, Nat.add_assoc]

/-- The weight at the end of the file. -/
def WEnd (wk : WKind W) (μ : Mapping) (e : Nat) (tail : List Byte) (w : W) : Prop := ∃ u, u <:+ tail ∧ wk.read μ (rd e tail) = .ok (w, rd e u)

theorem full_tail {lw k : Nat} {wk : WKind W} {τ tail : List Byte} {en : List Nat × W} (hw : wk.wgt = true) (hr : Readable μ e) (v : View μ e τ) (hn : nl ∉ τ)
    (hne : en.1 ≠ []) (hlen : en.1.length = k) (hc : CoordsAt lw en.1 τ tail) (htl : firstIntL tail ≠ []) (hwe : WEnd wk μ e tail en.2)
    {ent : List Byte → Option (List Nat × W)} (he : ent τ = some en) :
    TailOk' (tensorCount μ lw wk k) (fun c _ => c + 1) ent e τ ∧
    TailOk' (tensorSet μ lw wk k) (fun st en => (st.1 + 1, st.2 ++ tActs lw wk.wgt k st.1 en)) ent e τ := by
  obtain ⟨xs, w⟩ := en
  simp only at *
  subst hlen
  obtain ⟨x, xs, rfl⟩ := List.exists_cons_of_ne_nil hne
  have hf := hc.1
  have hc := hc.first
  have n1 := not_mem_firstInt hn
  have v1 : View μ e (firstIntL τ) := v.of_suffix (toStop_suffix _ _ _)
  have v0 : View μ e [] := v.of_suffix List.nil_suffix
  have htne : tail ≠ [] := by rintro rfl; exact htl rfl
  have fin : ∀ u, u <:+ firstIntL τ → ∀ {α : Type} (a : α), (moveToEol μ (rd e u) >>= fun r => moveToNextInt μ r >>= fun r => Except.ok (a, r)) =
      (.ok (a, rd e []) : M (α × Reader)) := by
    intro u hu α a
    have : eolL u = [] := by
      apply dropWhile_nil
      intro b hb
      simp only [bne_iff_ne, ne_eq]
      rintro rfl
      exact n1 (hu.subset hb)
    rw [moveToEol_eq (v1.of_suffix hu), this, ok_bind, moveToNextInt_eq v0 hr]
    rfl
  unfold TailOk'
  rw [he]
  simp only
  refine ⟨⟨hf, fun s => ?_⟩, hf, fun s => ?_⟩
  · have h0 := skipCoords_end hw hr hc htl v1
    have hid : firstIntL (firstIntL τ) = firstIntL τ := by
      cases hu : firstIntL τ with
      | nil => exact absurd hu hf
      | cons c t =>
        obtain ⟨h1, h2⟩ := toStop_head isDigit false τ c t hu
        rw [firstIntL, toStop.eq_3, h2, h1]; simp
    rw [hid] at h0
    rw [tensorCount, h0]
    simp only [ok_bind, Bool.not_true, Bool.false_eq_true, if_false]
    exact fin _ ((toStop_suffix _ _ _).trans hc.suffix) _
  · obtain ⟨u, hu, hread⟩ := hwe
    rw [tensorSet, readCoords_end n1 hc htne v1]
    simp only [ok_bind, Bool.not_true, Bool.false_eq_true, if_false, hread, hw, if_true]
    rw [fin u (hu.trans hc.suffix)]
    simp [tActs]

/-- An unsigned integer is read at the end of the file as it would be before a newline. -/
theorem uint_end {ww : Nat} {tail : List Byte} {w : Nat} (h : WTail (wUint ww) tail w) (hn : nl ∉ tail) (hs : tail.dropWhile isDigit = tail) (hne : firstIntL tail ≠ [])
    (hr : Readable μ e) (v : View μ e tail) : WEnd (wUint ww) μ e tail w := by
  have hnext : nextIntL tail = firstIntL tail := by unfold nextIntL; rw [hs]
  have v1 : View μ e (firstIntL tail) := v.of_suffix (toStop_suffix _ _ _)
  have key : ∀ (μ' : Mapping) (e' : Nat) (rest : List Byte), (∀ b t, rest = b :: t → isDigit b = false) → View μ' e' (firstIntL tail ++ rest) →
      readInt μ' (wrapU ww) (rd e' (firstIntL tail ++ rest)) =
        .ok (decVal ((firstIntL tail).takeWhile isDigit) % 2 ^ ww, rd e' ((firstIntL tail).dropWhile isDigit ++ rest)) := by
    intro μ' e' rest hrest v'
    rw [readInt_wrapU ww v']
    cases hf : firstIntL tail with
    | nil => exact absurd hf hne
    | cons c t =>
      have hc := (toStop_head isDigit false tail c t hf).1
      have h1 : toDigitL (c :: t ++ rest) = c :: t ++ rest := by
        unfold toDigitL; rw [List.cons_append, List.dropWhile_cons]; simp [hc]
      have htw : ∀ (a : List Byte), (a ++ rest).takeWhile isDigit = a.takeWhile isDigit ∧ (a ++ rest).dropWhile isDigit = a.dropWhile isDigit ++ rest := by
        intro a
        induction a with
        | nil =>
          cases rest with
          | nil => exact ⟨rfl, rfl⟩
          | cons b t => have := hrest b t rfl; simp [this]
        | cons a s ih =>
          simp only [List.cons_append, List.takeWhile_cons, List.dropWhile_cons]
          cases isDigit a <;> simp [ih]
      rw [h1, (htw (c :: t)).1, (htw (c :: t)).2]
  obtain ⟨⟨u', _, h1⟩, _⟩ := h ⟨tail ++ [nl], 1⟩ (tail ++ [nl]).length [] (View.full _) (by unfold Readable; simp)
  have vf : View ⟨tail ++ [nl], 1⟩ (tail ++ [nl]).length (firstIntL tail ++ [nl]) := (View.full ⟨tail ++ [nl], 1⟩).of_suffix (suf_nl [] (toStop_suffix _ _ _))
  have hval : w = decVal ((firstIntL tail).takeWhile isDigit) % 2 ^ ww := by
    have hm : moveToNextInt ⟨tail ++ [nl], 1⟩ (rd (tail ++ [nl]).length (tail ++ [nl])) = .ok (rd (tail ++ [nl]).length (firstIntL tail ++ [nl])) := by
      rw [moveToNextInt_eq (View.full ⟨tail ++ [nl], 1⟩) (by unfold Readable; simp), nextIntL_line _ _ hn (by rw [hnext]; exact hne), hnext]
    simp only [wUint, hm, ok_bind] at h1
    rw [key _ _ [nl] (by intro b t h; injection h with h _; rw [← h]; decide) vf] at h1
    simp only [ok_bind] at h1
    injection h1 with h1
    injection h1 with h1 _
    exact h1.symm
  refine ⟨(firstIntL tail).dropWhile isDigit, (dropWhile_suffix' _ _).trans (toStop_suffix _ _ _), ?_⟩
  have := key μ e [] (by simp) (by rw [List.append_nil]; exact v1)
  rw [List.append_nil, List.append_nil] at this
  simp only [wUint, moveToNextInt_eq v hr, hnext, ok_bind, this, hval]

end Pigo
