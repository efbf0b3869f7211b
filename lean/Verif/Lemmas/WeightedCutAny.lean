import Verif.Lemmas.WeightedRest
import Verif.Lemmas.Formats
import Verif.Lemmas.FpAny
import Verif.Spec.MatrixMarket

/-!
# Weighted edge lists that end within a line, for any kind of weights that can be read out of any text

The lemmas of `WeightedLines`, `WeightedCut` and `WeightedRest` without the assumption that the weights are unsigned.
-/

namespace Pigo

variable {W : Type}

/-- Pass 2 on a line: it takes the entry and stays on the line. -/
structure GLaw (lw : Nat) (wv : List Byte → W) (ws : List Byte → List Byte) (l : List Byte) (en : Nat × Nat × W) : Prop where
  two : 2 ≤ (Spec.ints l).length
  more : ∀ rest, ws (preW (firstIntL l ++ nl :: rest)) ≠ []
  next : ∀ rest, nextLineL (ws (preW (firstIntL l ++ nl :: rest))) = firstIntL rest
  x : ∀ rest, numAt lw (firstIntL l ++ nl :: rest) = en.1
  y : ∀ rest, numAt lw (nextIntL (afterNum (firstIntL l ++ nl :: rest))) = en.2.1
  w : ∀ rest, wv (preW (firstIntL l ++ nl :: rest)) = en.2.2

theorem two_ints {l : List Byte} (hn : nl ∉ l) (hx : firstIntL l ≠ []) (hy : nextIntL (firstIntL l) ≠ []) : 2 ≤ (Spec.ints l).length := by
  match hi : Spec.ints l with
  | [] => exact absurd ((firstIntL_nil_iff l hn).mpr hi) hx
  | [x] => exact absurd ((nextInt_of_ints hn hi).2.2.2.2.2.2.mpr rfl) hy
  | x :: y :: t => simp

/-- Whenever a weight is read, in whatever file, the value and what is left are these. -/
structure ValW (wk : WKind W) (wv : List Byte → W) (ws : List Byte → List Byte) : Prop where
  suffix : ∀ s, ws s <:+ s
  val : ∀ {μ : Mapping} {e : Nat} {s : List Byte} {p : W × Reader}, View μ e s → EndB μ e → wk.read μ (rd e s) = .ok p → p = (wv s, rd e (ws s))

theorem AnyW.toVal {wk : WKind W} {wv : List Byte → W} {ws : List Byte → List Byte} (h : ∀ μ, AnyW μ wk wv ws) : ValW wk wv ws where
  suffix := (h ⟨[], 0⟩).suffix
  val {μ e s p} v he hr := by
    rw [(h μ).read v he] at hr
    injection hr with hr
    exact hr.symm

theorem glaw_of_line {lw : Nat} {wk : WKind W} {wv : List Byte → W} {ws : List Byte → List Byte} (hw : ValW wk wv ws) {l : List Byte} {en : Nat × Nat × W}
    (h : LineLaw lw wk l en) : GLaw lw wv ws l en := by
  have n0 := not_mem_firstInt h.nonl
  have n1 : nl ∉ (firstIntL l).dropWhile isDigit := not_mem_dropWhile _ n0
  have n2 : nl ∉ nextIntL (firstIntL l) := not_mem_firstInt n1
  have hd : nextIntL ((firstIntL l).dropWhile isDigit) = nextIntL (firstIntL l) := nextIntL_dropWhile _
  have e2 : ∀ rest, nextIntL (afterNum (firstIntL l ++ nl :: rest)) = nextIntL (firstIntL l) ++ nl :: rest := fun rest => by
    rw [(afterNum_line rest (atNum_firstInt _ _) h.hx).1, nextIntL_line _ _ n1 (by rw [hd]; exact h.hy), hd]
  have e3 : ∀ rest, preW (firstIntL l ++ nl :: rest) = (nextIntL (firstIntL l)).dropWhile isDigit ++ nl :: rest := fun rest => by
    unfold preW; rw [e2]; exact (afterNum_line rest (atNum_nextInt _) h.hy).1
  have key : ∀ rest, ∃ u', nl ∉ u' ∧ wv (preW (firstIntL l ++ nl :: rest)) = en.2.2 ∧ ws (preW (firstIntL l ++ nl :: rest)) = u' ++ nl :: rest := by
    intro rest
    rw [e3]
    have v := View.full ⟨(nextIntL (firstIntL l)).dropWhile isDigit ++ nl :: rest, 1⟩
    have he : EndB ⟨(nextIntL (firstIntL l)).dropWhile isDigit ++ nl :: rest, 1⟩ _ := endB_file (by simp)
    obtain ⟨⟨u', hu, hr⟩, _⟩ := h.wt _ _ rest v he.readable
    have hr := hw.val v he hr
    simp only [Prod.mk.injEq] at hr
    obtain ⟨h1, h2⟩ := hr
    refine ⟨u', fun hm => not_mem_dropWhile _ n2 (hu.subset hm), h1.symm, ?_⟩
    have s1 := hw.suffix ((nextIntL (firstIntL l)).dropWhile isDigit ++ nl :: rest)
    have s2 := suffix_nl rest hu
    have hl : (ws ((nextIntL (firstIntL l)).dropWhile isDigit ++ nl :: rest)).length = (u' ++ nl :: rest).length := by
      have h3 := congrArg Reader.d h2
      have l1 := s1.length_le
      have l2 := s2.length_le
      simp only [rd] at h3 
      omega
    exact (List.suffix_of_suffix_length_le s1 s2 (Nat.le_of_eq hl)).eq_of_length hl
  refine ⟨two_ints h.nonl h.hx h.hy, fun rest => ?_, fun rest => ?_, fun rest => ?_, fun rest => ?_, fun rest => ?_⟩
  · obtain ⟨u', _, _, h2⟩ := key rest; rw [h2]; simp
  · obtain ⟨u', h1, _, h2⟩ := key rest; rw [h2]; exact nextLineL_line rest h1
  · rw [(afterNum_line rest (atNum_firstInt _ _) h.hx).2 lw, h.xv]
  · rw [e2, (afterNum_line rest (atNum_nextInt _) h.hy).2 lw, h.yv]
  · obtain ⟨u', _, h1, _⟩ := key rest; exact h1

/-- The lines of a file: without numbers, or with an entry. -/
def GLines (lw : Nat) (wv : List Byte → W) (ws : List Byte → List Byte) (ent : List Byte → Option (Nat × Nat × W)) (L : List (List Byte)) : Prop :=
  ∀ l ∈ L, (Spec.ints l = [] ∧ ent l = none) ∨ ∃ en, ent l = some en ∧ GLaw lw wv ws l en

section
variable {lw : Nat} {wv : List Byte → W} {ws : List Byte → List Byte} {ent : List Byte → Option (Nat × Nat × W)}

theorem GLines.two {L : List (List Byte)} (h : GLines lw wv ws ent L) : ∀ l ∈ L, Spec.ints l = [] ∨ 2 ≤ (Spec.ints l).length := by
  intro l hl
  rcases h l hl with ⟨h, _⟩ | ⟨en, _, h⟩
  · exact .inl h
  · exact .inr h.two

theorem GLines.sub {L L' : List (List Byte)} (h : GLines lw wv ws ent L) (hs : ∀ l ∈ L', l ∈ L) : GLines lw wv ws ent L' := fun l hl => h l (hs l hl)

theorem GLines.edge {L : List (List Byte)} (h : GLines lw wv ws ent L) : (L.filterMap Spec.edge).length = (L.filterMap ent).length := by
  induction L with
  | nil => rfl
  | cons l L ih =>
    have ih := ih (h.sub (fun l' h' => List.mem_cons_of_mem _ h'))
    rcases h l (by simp) with ⟨hi, e2⟩ | ⟨en, e2, g⟩
    · have e1 : Spec.edge l = none := by unfold Spec.edge; rw [hi]
      simp only [List.filterMap_cons, e1, e2, ih]
    · match hj : Spec.ints l, g.two with
      | x :: y :: t, _ =>
        have e1 : Spec.edge l = some (x, y) := by unfold Spec.edge; rw [hj]
        simp only [List.filterMap_cons, e1, e2, List.length_cons, ih]

/-- Both passes over lines with entries or without numbers. -/
theorem scanG (hws : ∀ s, ws s <:+ s) {σ : List Byte} : ∀ (L : List (List Byte)), NoNl L → GLines lw wv ws ent L → ∀ (n k : Nat),
    (firstIntL (text L ++ σ)).length ≤ n → (firstIntL σ).length ≤ k →
      cScan n (firstIntL (text L ++ σ)) = (L.filterMap ent).length + cScan k (firstIntL σ) ∧
      wScan lw wv ws n (firstIntL (text L ++ σ)) = (L.filterMap ent ++ (wScan lw wv ws k (firstIntL σ)).1, (wScan lw wv ws k (firstIntL σ)).2)
  | [], _, _, n, k, hn, hk => by
    rw [text_nil, List.nil_append] at hn ⊢
    rw [cScan_stable n _ (atNum_firstInt _ _) hn k hk, wScan_stable hws n _ (atNum_firstInt _ _) hn k hk]
    exact ⟨(Nat.zero_add _).symm, rfl⟩
  | l :: L, hnl, h3, n, k, hn, hk => by
    have hl := hnl l (by simp)
    have hnl' : NoNl L := fun l' h' => hnl l' (List.mem_cons_of_mem _ h')
    have h3' := h3.sub (fun l' h' => List.mem_cons_of_mem l h')
    rw [text_cons, List.append_assoc, List.cons_append, first_line hl] at hn ⊢
    rcases h3 l (by simp) with ⟨h, he⟩ | ⟨en, he, g⟩
    · rw [if_pos h] at hn ⊢
      rw [List.filterMap_cons, he]
      exact scanG hws L hnl' h3' n k hn hk
    · have hne : Spec.ints l ≠ [] := by intro hh; have := g.two; rw [hh] at this; simp at this
      rw [if_neg hne] at hn ⊢
      have hf : firstIntL l ≠ [] := fun hh => hne ((firstIntL_nil_iff l hl).mp hh)
      have hat : AtNum (firstIntL l ++ nl :: (text L ++ σ)) := atNum_append (atNum_firstInt _ _) hf
      obtain ⟨c1, c2⟩ := cStep hl (text L ++ σ) g.two
      have w2 := g.next (text L ++ σ)
      rw [cScan_step hat (by simp) c1 hn (k := (firstIntL (text L ++ σ)).length) (Nat.le_of_eq (by rw [c2])),
        wScan_step hws hat (by simp) (g.more _) hn (k := (firstIntL (text L ++ σ)).length) (Nat.le_of_eq (by rw [w2])), c2, w2, g.x, g.y, g.w]
      obtain ⟨i1, i2⟩ := scanG hws L hnl' h3' _ k (Nat.le_refl _) hk
      rw [i1, i2, List.filterMap_cons, he]
      exact ⟨by simp only [List.length_cons]; omega, rfl⟩

/-- The text after the last newline: two numbers, and no weight can be read that ends before the file does. -/
structure GCut (ws : List Byte → List Byte) (τ : List Byte) : Prop where
  two : 2 ≤ (Spec.ints τ).length
  torn : ws (preW (firstIntL τ)) = []

theorem GCut.scan {τ : List Byte} (hτ : nl ∉ τ) (h : GCut ws τ) {k : Nat} (hk : (firstIntL τ).length ≤ k) :
    cScan k (firstIntL τ) = 1 ∧ (wScan lw wv ws k (firstIntL τ)).1 = [] := by
  have hne : Spec.ints τ ≠ [] := by intro hh; have := h.two; rw [hh] at this; simp at this
  have hf : firstIntL τ ≠ [] := fun hh => hne ((firstIntL_nil_iff τ hτ).mp hh)
  have h1 := cScan_tail hτ (.inr h.two) [] (fun l h => by cases h) (fun l h => by cases h) k (by simpa using hk)
  rw [text_nil, List.nil_append] at h1
  have hpos := List.length_pos_iff.mpr hf
  obtain ⟨k, rfl⟩ : ∃ q, k = q + 1 := ⟨k - 1, by omega⟩
  refine ⟨?_, by rw [wScan, if_neg hf, if_pos h.torn]⟩
  rw [h1]
  have hl2 := h.two
  match hi : Spec.ints τ, hl2 with
  | x :: y :: t, _ =>
    have he : Spec.edge τ = some (x, y) := by unfold Spec.edge; rw [hi]
    simp [he]

variable {ls : List (List Byte)} {τ : List Byte} (hws : ∀ s, ws s <:+ s) (hls : NoNl ls) (hτ : nl ∉ τ) (h3 : GLines lw wv ws ent ls) (hcut : GCut ws τ)
include hws hls hτ h3 hcut

omit hws hls hτ in
theorem two_all : ∀ l ∈ ls ++ [τ], Spec.ints l = [] ∨ 2 ≤ (Spec.ints l).length := by
  intro l hl
  rcases List.mem_append.mp hl with hl | hl
  · exact h3.two l hl
  · simp only [List.mem_singleton] at hl; subst hl; exact .inr hcut.two

/-- What a thread does: its lines, in full; the entry that was cut is left out. -/
theorem cutG_part (T tid : Nat) :
    (wPart lw wv ws (text ls ++ τ) T tid).1 =
      ((ls.drop (lineOf (text ls ++ τ) T tid)).take (lineOf (text ls ++ τ) T (tid+1) - lineOf (text ls ++ τ) T tid)).filterMap ent ∧
    ((wPart lw wv ws (text ls ++ τ) T tid).2 = none ∨ (wPart lw wv ws (text ls ++ τ) T tid).1.length < cPart (text ls ++ τ) T tid) := by
  unfold wPart cPart
  rcases region_at hls hτ T tid with ⟨_, g, hg, hreg⟩ | ⟨c1, c2, hreg⟩ | ⟨c, hreg⟩
  · have hin : ∀ l ∈ (ls.drop (lineOf (text ls ++ τ) T tid)).take (lineOf (text ls ++ τ) T (tid+1) - lineOf (text ls ++ τ) T tid), l ∈ ls :=
      fun l hl => List.mem_of_mem_drop (List.mem_of_mem_take hl)
    obtain ⟨_, i2⟩ := scanG hws _ (fun l hl => hls l (hin l hl)) (h3.sub hin) _ 0 (Nat.le_refl _) (show (firstIntL g).length ≤ 0 by rw [hg]; exact Nat.le_refl _)
    rw [hreg, i2, hg]
    exact ⟨by simp [wScan], .inl rfl⟩
  · have hin : ∀ l ∈ ls.drop (lineOf (text ls ++ τ) T tid), l ∈ ls := fun l hl => List.mem_of_mem_drop hl
    obtain ⟨i1, i2⟩ := scanG hws _ (fun l hl => hls l (hin l hl)) (h3.sub hin) _ _ (Nat.le_refl _) (Nat.le_refl (firstIntL τ).length)
    obtain ⟨j1, j2⟩ := hcut.scan (lw := lw) (wv := wv) hτ (Nat.le_refl _)
    rw [hreg, i1, i2, j1, j2, List.append_nil, List.take_of_length_le (by rw [List.length_drop]; omega)]
    exact ⟨rfl, .inr (by simp)⟩
  · rw [hreg, List.drop_of_length_le (by omega)]; exact ⟨by simp [wScan], .inl rfl⟩

theorem cutG_flat (T : Nat) : ∀ t, (List.range t).flatMap (fun t => (wPart lw wv ws (text ls ++ τ) T t).1) =
    (ls.take (lineOf (text ls ++ τ) T t)).filterMap ent
  | 0 => by simp [lineOf]
  | t+1 => by
    rw [List.range_succ, List.flatMap_append, cutG_flat T t]
    simp only [List.flatMap_cons, List.flatMap_nil, List.append_nil]
    rw [(cutG_part hws hls hτ h3 hcut T t).1, ← List.filterMap_append]
    have h := lineOf_mono (text ls ++ τ) T t
    conv => rhs; rw [show lineOf (text ls ++ τ) T (t+1) = lineOf (text ls ++ τ) T t + (lineOf (text ls ++ τ) T (t+1) - lineOf (text ls ++ τ) T t) by omega]
    rw [List.take_add]

theorem cutG_all {T : Nat} (hT : 0 < T) : (List.range T).flatMap (fun t => (wPart lw wv ws (text ls ++ τ) T t).1) = ls.filterMap ent := by
  rw [cutG_flat hws hls hτ h3 hcut, List.take_of_length_le]
  unfold lineOf
  rw [if_neg (by omega), cut_last _ _ hT, List.take_length, count_text ls τ hls]
  omega

/-- How many entries the file has. -/
theorem cutG_count {T : Nat} (hT : 0 < T) : cStart (text ls ++ τ) T T = (ls.filterMap ent).length + 1 := by
  rw [cStart_lines hls hτ (two_all h3 hcut) hT, ← h3.edge, List.filterMap_append, List.length_append]
  have hl2 := hcut.two
  match hi : Spec.ints τ, hl2 with
  | x :: y :: t, _ =>
    have he : Spec.edge τ = some (x, y) := by unfold Spec.edge; rw [hi]
    simp [he]

/-- Where the entries of a thread are. -/
theorem cutG_start {T tid : Nat} (hne : (wPart lw wv ws (text ls ++ τ) T tid).1 ≠ []) :
    cStart (text ls ++ τ) T tid = ((ls.take (lineOf (text ls ++ τ) T tid)).filterMap ent).length := by
  have hJ : lineOf (text ls ++ τ) T tid ≤ ls.length := by
    apply Nat.le_of_not_lt
    intro hlt
    apply hne
    rw [(cutG_part hws hls hτ h3 hcut T tid).1, List.drop_of_length_le (by omega)]
    simp
  rw [cStart_take hls hτ (two_all h3 hcut), List.take_append_of_le_length hJ, (h3.sub (fun l hl => List.mem_of_mem_take hl)).edge]

theorem cutG_pos {T : Nat} (hT : 0 < T) {i : Nat} {e : Nat × Nat × W} (hi : (ls.filterMap ent)[i]? = some e) :
    ∃ t < T, ∃ j, i = cStart (text ls ++ τ) T t + j ∧ (wPart lw wv ws (text ls ++ τ) T t).1[j]? = some e := by
  have hi' := hi
  rw [← cutG_all hws hls hτ h3 hcut hT] at hi'
  obtain ⟨t, a, j, g1, g2, g3, g4⟩ := flatMap_pos _ _ i (List.getElem?_eq_some_iff.mp hi').1
  have ht : t < T := by have := (List.getElem?_eq_some_iff.mp g1).1; simpa using this
  rw [List.getElem?_range ht] at g1
  simp only [Option.some.injEq] at g1
  subst g1
  refine ⟨t, ht, j, ?_, by rw [← g4]; exact hi'⟩
  rw [g3, List.take_range, show min t T = t by omega, cutG_flat hws hls hτ h3 hcut,
    cutG_start hws hls hτ h3 hcut (by intro h0; rw [h0] at g2; simp at g2)]

/-- No thread has an entry behind the complete ones. -/
theorem cutG_below {T tid j : Nat} {e : Nat × Nat × W} (hj : (wPart lw wv ws (text ls ++ τ) T tid).1[j]? = some e) :
    cStart (text ls ++ τ) T tid + j < (ls.filterMap ent).length := by
  have hjl := (List.getElem?_eq_some_iff.mp hj).1
  rw [cutG_start hws hls hτ h3 hcut (by intro h0; rw [h0] at hjl; simp at hjl)]
  rw [(cutG_part hws hls hτ h3 hcut T tid).1] at hjl
  have h1 : ((ls.take (lineOf (text ls ++ τ) T tid)).filterMap ent).length + (((ls.drop (lineOf (text ls ++ τ) T tid)).take
      (lineOf (text ls ++ τ) T (tid+1) - lineOf (text ls ++ τ) T tid)).filterMap ent).length ≤ (ls.filterMap ent).length := by
    rw [← List.length_append, ← List.filterMap_append, ← List.take_add]
    exact ((List.take_sublist _ ls).filterMap ent).length_le
  omega

end

/-! ## The loads -/

section
variable {wk : WKind W} {lw ow T : Nat} {wv : List Byte → W} {ws : List Byte → List Byte} {ent : List Byte → Option (Nat × Nat × W)}

theorem cutG_file {μ : Mapping} {L : List (List Byte)} {τ : List Byte} (hlines : Spec.lines μ.bytes = L ++ [τ]) : NoNl L ∧ nl ∉ τ ∧ μ.bytes = text L ++ τ := by
  have hnl := lines_noNl μ.bytes
  refine ⟨fun l' h' => hnl l' (by rw [hlines]; simp [h']), hnl τ (by rw [hlines]; simp), ?_⟩
  have := text_lines μ.bytes
  simp only [hlines, List.dropLast_concat, List.getLast_concat] at this
  exact this

/-- A file cut within its last entry: every execution. -/
theorem loadG_rest (μ : Mapping) (hw : AnyW μ wk wv ws) (hpad : 0 < μ.pad) (hT : 0 < T) (hm : μ.bytes.length < 2 ^ ow)
    (L : List (List Byte)) (τ : List Byte) (hlines : Spec.lines μ.bytes = L ++ [τ]) (h3 : GLines lw wv ws ent L) (hcut : GCut ws τ) :
    ∀ out, LoadEdgeList μ lw ow {} wk T out → ∃ c, out = .ok c ∧
      c.m = (L.filterMap ent).length + 1 ∧ c.x.length = c.m ∧ c.y.length = c.m ∧ c.w.length = c.m ∧
      c.nrows = (Spec.maxOf ((L.filterMap ent).map (fun e => e.1)) + 1) % 2 ^ lw ∧
      c.ncols = (Spec.maxOf ((L.filterMap ent).map (fun e => e.2.1)) + 1) % 2 ^ lw ∧ c.n = max c.nrows c.ncols ∧
      ∀ (i x y : Nat) (w : W), (L.filterMap ent)[i]? = some (x, y, w) → c.x[i]? = some x ∧ c.y[i]? = some y ∧ c.w[i]? = some w := by
  intro out ho
  obtain ⟨hnL, hnτ, hfile⟩ := cutG_file hlines
  have htorn : TornIn lw wv ws μ.bytes T := by
    intro tid _
    rw [hfile]
    exact (cutG_part hw.suffix hnL hnτ h3 hcut T tid).2
  unfold LoadEdgeList at ho
  rw [fileReader_all] at ho
  obtain ⟨c, h1, h2, h3', h4, h5, h7, h8, h9, h6⟩ := (readEl_stored (View.full μ) (endB_file hpad) (lw := lw) (ow := ow) (cfg := {}) rfl hw hT hm htorn).1 out ho
  have hflat := cutG_all hw.suffix hnL hnτ h3 hcut hT
  rw [← hfile] at hflat
  have hmr : ((List.range T).map (wState lw wv ws μ.bytes T)).foldl (fun a st => max a st.mr) 0 = Spec.maxOf ((L.filterMap ent).map (fun e => e.1)) := by
    rw [List.foldl_map]
    simp only [wState, foldl_upd, Nat.zero_max]
    rw [foldl_max_parts (fun t => (wPart lw wv ws μ.bytes T t).1) (fun e => e.1), Nat.zero_max, hflat]
  have hmc : ((List.range T).map (wState lw wv ws μ.bytes T)).foldl (fun a st => max a st.mc) 0 = Spec.maxOf ((L.filterMap ent).map (fun e => e.2.1)) := by
    rw [List.foldl_map]
    simp only [wState, foldl_upd, Nat.zero_max]
    rw [foldl_max_parts (fun t => (wPart lw wv ws μ.bytes T t).1) (fun e => e.2.1), Nat.zero_max, hflat]
  refine ⟨c, h1, ?_, h3', h4, h5, by rw [h7, hmr], by rw [h8, hmc], h9, fun i x y w hi => ?_⟩
  · rw [h2, hfile, cutG_count hw.suffix hnL hnτ h3 hcut hT]
  · obtain ⟨t, ht, j, hij, hj⟩ := cutG_pos hw.suffix hnL hnτ h3 hcut hT hi
    rw [← hfile] at hij hj
    rw [hij]
    exact h6 t ht j _ _ _ hj

/-- ... and the labels of the entry that was cut are what the memory held. -/
theorem loadG_junk [Nonempty W] (μ : Mapping) (hw : AnyW μ wk wv ws) (hpad : 0 < μ.pad) (hT : 0 < T) (hm : μ.bytes.length < 2 ^ ow)
    (L : List (List Byte)) (τ : List Byte) (hlines : Spec.lines μ.bytes = L ++ [τ]) (h3 : GLines lw wv ws ent L) (hcut : GCut ws τ) (a b : Nat) :
    ∃ c, LoadEdgeList μ lw ow {} wk T (.ok c) ∧ c.x[(L.filterMap ent).length]? = some a ∧ c.y[(L.filterMap ent).length]? = some b := by
  obtain ⟨hnL, hnτ, hfile⟩ := cutG_file hlines
  have htorn : TornIn lw wv ws μ.bytes T := by
    intro tid _
    rw [hfile]
    exact (cutG_part hw.suffix hnL hnτ h3 hcut T tid).2
  obtain ⟨w0⟩ : Nonempty W := inferInstance
  obtain ⟨c, h1, h2⟩ := (readEl_stored (View.full μ) (endB_file hpad) (lw := lw) (ow := ow) (cfg := {}) rfl hw hT hm htorn).2 ⟨fun _ => a, fun _ => b, fun _ => w0⟩
  refine ⟨c, by unfold LoadEdgeList; rw [fileReader_all]; exact h1, ?_⟩
  -- the thread whose part the position is in
  have hcount := cutG_count hw.suffix hnL hnτ h3 hcut hT
  rw [← hfile] at hcount
  have hex : ∃ tid < T, cStart μ.bytes T tid ≤ (L.filterMap ent).length ∧ (L.filterMap ent).length < cStart μ.bytes T (tid + 1) := by
    have : ∀ t ≤ T, (L.filterMap ent).length < cStart μ.bytes T t → ∃ tid < t, cStart μ.bytes T tid ≤ (L.filterMap ent).length ∧
        (L.filterMap ent).length < cStart μ.bytes T (tid + 1) := by
      intro t
      induction t with
      | zero => intro _ h; simp [cStart] at h
      | succ t ih =>
        intro hle h
        by_cases hlt : (L.filterMap ent).length < cStart μ.bytes T t
        · obtain ⟨tid, g1, g2⟩ := ih (by omega) hlt
          exact ⟨tid, by omega, g2⟩
        · exact ⟨t, by omega, by omega, h⟩
    exact this T (Nat.le_refl _) (by omega)
  obtain ⟨tid, ht, hlo, hhi⟩ := hex
  rw [cStart_succ] at hhi
  have hge : (wPart lw wv ws μ.bytes T tid).1.length ≤ (L.filterMap ent).length - cStart μ.bytes T tid := by
    apply Nat.le_of_not_lt
    intro hlt
    obtain ⟨en, hg⟩ : ∃ en, (wPart lw wv ws μ.bytes T tid).1[(L.filterMap ent).length - cStart μ.bytes T tid]? = some en := ⟨_, List.getElem?_eq_getElem hlt⟩
    rw [hfile] at hg hlo
    have := cutG_below hw.suffix hnL hnτ h3 hcut hg
    omega
  have := h2 tid ht _ hge (by omega)
  rw [show cStart μ.bytes T tid + ((L.filterMap ent).length - cStart μ.bytes T tid) = (L.filterMap ent).length by omega] at this
  exact this

/-- A number alone behind the lines with entries: a store outside of the array of weights. -/
theorem loadG_lone (μ : Mapping) (hw : AnyW μ wk wv ws) (hpad : 0 < μ.pad) (hT : 0 < T) (hm : μ.bytes.length < 2 ^ ow)
    (L B : List (List Byte)) (l : List Byte) (hlines : Spec.lines μ.bytes = L ++ l :: B) (h3 : GLines lw wv ws ent L)
    (hl : (Spec.ints l).length = 1) (hB : ∀ l ∈ B, Spec.ints l = []) : ∀ out, LoadEdgeList μ lw ow {} wk T out → out = .error .oob := by
  unfold LoadEdgeList
  rw [fileReader_all]
  refine (readEl_w (View.full μ) (endB_file hpad) (lw := lw) (cfg := {}) rfl hw hT hm).1 ?_
  have hnl := lines_noNl μ.bytes
  have hnL : NoNl L := fun l' h' => hnl l' (by rw [hlines]; simp [h'])
  have hnl1 : nl ∉ l := hnl l (by rw [hlines]; simp)
  have hnB : NoNl B := fun l' h' => hnl l' (by rw [hlines]; simp [h'])
  obtain ⟨x, hx⟩ : ∃ x, Spec.ints l = [x] := by
    match hi : Spec.ints l, hl with
    | [x], _ => exact ⟨x, rfl⟩
  obtain ⟨n0, g1, g2, n1, g3, g4, g5⟩ := nextInt_of_ints hnl1 hx
  have hnext : nextIntL (firstIntL l) = [] := g5.mpr rfl
  -- the text from the lone number on
  obtain ⟨LS, τ, σ, hLS, hτ, hfile, hσ1, hσ2, hdrop⟩ : ∃ LS τ σ, NoNl LS ∧ nl ∉ τ ∧ μ.bytes = text LS ++ τ ∧ firstIntL σ ≠ [] ∧ nextIntL (firstIntL σ) = [] ∧
      ∀ J ≤ LS.length, firstIntL (text (LS.drop J) ++ τ) = [] ∨ text (LS.drop J) ++ τ = text (L.drop J) ++ σ := by
    rcases List.eq_nil_or_concat B with rfl | ⟨B', τ, rfl⟩
    · refine ⟨L, l, l, hnL, hnl1, ?_, g1, hnext, fun J _ => .inr rfl⟩
      have := text_lines μ.bytes
      simp only [hlines, List.dropLast_concat, List.getLast_concat] at this
      exact this
    · have hn' : NoNl B' := fun l' h' => hnB l' (by simp [h'])
      have hnτ : nl ∉ τ := hnB τ (by simp)
      have hB'0 : ∀ l ∈ B', Spec.ints l = [] := fun l' h' => hB l' (by simp [h'])
      have hτ0 : firstIntL τ = [] := (firstIntL_nil_iff τ hnτ).mpr (hB τ (by simp))
      have hσ : firstIntL (text (l :: B') ++ τ) = firstIntL l ++ nl :: (text B' ++ τ) := by
        rw [text_cons, List.append_assoc, List.cons_append, first_line hnl1, if_neg (by rw [hx]; simp)]
      refine ⟨L ++ l :: B', τ, text (l :: B') ++ τ, ?_, hnτ, ?_, by rw [hσ]; simp, ?_, fun J hJ => ?_⟩
      · intro l' h'
        exact hnl l' (by rw [hlines]; simp only [List.mem_append, List.mem_cons, List.concat_eq_append] at h' ⊢; rcases h' with h | h | h <;> simp [h])
      · have := text_lines μ.bytes
        have h : Spec.lines μ.bytes = (L ++ l :: B') ++ [τ] := by rw [hlines]; simp
        simp only [h, List.dropLast_concat, List.getLast_concat] at this
        exact this
      · rw [hσ, nextIntL_over _ n0 hnext, firstInt_blank hn' hB'0, hτ0]
      · by_cases hj : J ≤ L.length
        · right
          rw [List.drop_append_of_le_length hj, text_append, List.append_assoc]
        · left
          have hdr : (L ++ l :: B').drop J = B'.drop (J - L.length - 1) := by
            rw [List.drop_append, List.drop_of_length_le (by omega), List.nil_append, show J - L.length = (J - L.length - 1) + 1 by omega, List.drop_succ_cons]
            congr 1
          rw [hdr, firstInt_blank (fun l' h' => hn' l' (List.mem_of_mem_drop h')) (fun l' h' => hB'0 l' (List.mem_of_mem_drop h')), hτ0]
  have hne : firstIntL (text LS ++ τ) ≠ [] := by
    rw [← hfile]; exact firstInt_file ⟨l, by rw [hlines]; simp, by rw [hx]; simp⟩
  rw [hfile]
  obtain ⟨tid, ht, J, hJ, hreg, hregne, hlast⟩ := last_region hLS hτ hT hne
  rcases hdrop J hJ with h | h
  · rw [hreg] at hregne; exact absurd h hregne
  rw [h] at hreg
  obtain ⟨i1, i2⟩ := scanG hw.suffix (L.drop J) (fun l' h' => hnL l' (List.mem_of_mem_drop h')) (h3.sub (fun l' h' => List.mem_of_mem_drop h'))
    _ _ (Nat.le_refl _) (Nat.le_refl (firstIntL σ).length)
  have hp : preW (firstIntL σ) = [] := by
    have := preW_suffix (s := firstIntL σ) (atNum_firstInt _ _)
    rw [hσ2] at this; exact List.suffix_nil.mp this
  have hu : ws (preW (firstIntL σ)) = [] := by
    have := hw.suffix (preW (firstIntL σ))
    rw [hp] at this ⊢; exact List.suffix_nil.mp this
  obtain ⟨q, hq⟩ : ∃ q, (firstIntL σ).length = q + 1 := ⟨(firstIntL σ).length - 1, by have := List.length_pos_iff.mpr hσ1; omega⟩
  have j1 : cScan (firstIntL σ).length (firstIntL σ) = 0 := by rw [hq, cScan, if_neg hσ1, if_pos hσ2]
  have j2 : wScan lw wv ws (firstIntL σ).length (firstIntL σ) = ([], some (wv (preW (firstIntL σ)))) := by rw [hq, wScan, if_neg hσ1, if_pos hu]
  rw [j2] at i2
  rw [j1] at i1
  rw [← hreg] at i1 i2
  have i1 : cPart (text LS ++ τ) T tid = ((L.drop J).filterMap ent).length + 0 := i1
  have i2 : wPart lw wv ws (text LS ++ τ) T tid = ((L.drop J).filterMap ent ++ [], some (wv (preW (firstIntL σ)))) := i2
  have hstay : ∀ d, tid + 1 + d ≤ T → cStart (text LS ++ τ) T (tid + 1 + d) = cStart (text LS ++ τ) T (tid + 1) := by
    intro d
    induction d with
    | zero => intro _; rfl
    | succ d ih =>
      intro h
      rw [← ih (by omega), show tid + 1 + (d + 1) = (tid + 1 + d) + 1 by omega, cStart_succ]
      have : cPart (text LS ++ τ) T (tid + 1 + d) = 0 := by
        unfold cPart
        rw [hlast _ (by omega)]; rfl
      rw [this]; rfl
  have hend := hstay (T - tid - 1) (by omega)
  rw [show tid + 1 + (T - tid - 1) = T by omega] at hend
  exact ⟨tid, ht, by rw [i2]; simp, by rw [i2, hend, cStart_succ, i1]; simp⟩

end

end Pigo
