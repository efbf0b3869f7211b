import Verif.Lemmas.TensorTorn
import Verif.Props.Tensor
import Verif.Props.Robust
import Verif.Props.Reader

/-!
# Properties: tensors out of arbitrary or cut text files

C86.  `readTensor` is `Tensor(fn, ft)`: all interleavings of the threads' stores and all contents of uninitialised memory.
-/

namespace Pigo

variable {W : Type}

/-! ## Arbitrary text -/

theorem readTensorEl_exists [Nonempty W] (μ : Mapping) (lw ow : Nat) (wk : WKind W) (T : Nat) (r : Reader) : (readTensorEl μ lw ow wk T r).Any := by
  unfold readTensorEl
  exact R.Any.bind (R.Any.lift _) (fun p => R.Any.bind R.Any.any (fun jc => R.Any.bind R.Any.any (fun jw => R.Any.bind (R.Any.par _ _ _) (fun m => R.Any.pure _))))

/-- **C86**, partial: whatever the bytes of the file (mapped without touching the next page), loading it as a tensor without weights reads nothing outside
of the file and ends, with an order, a number of entries and arrays that agree with each other and fit in the file - or with a
store outside of the coordinate array, in which case no schedule avoids it.  With one thread the result depends on the file alone.
Missing: the absence of such stores, which fails (below). -/
theorem C86_any_text_partial (P : Params Unit) (hwk : P.wk = wNone) (hT : 0 < P.T) (page : Nat) (hp : 0 < page) (file : List Byte) (hd : ¬ page ∣ file.length)
    (hm : file.length + 1 < 2 ^ (8 * P.ob)) (fn : List Byte) :
    (readTensor P (mapFile page file) fn 0 .edgeList).Any ∧
    (∃ k m, 0 < k ∧ m * k ≤ file.length ∧
      ((∀ out, (readTensor P (mapFile page file) fn 0 .edgeList).Out out → out = .error .oob) ∨
       (readTensor P (mapFile page file) fn 0 .edgeList).All (fun t => t.order = k ∧ t.m = m ∧ t.c.length = k * m ∧ t.w = [] ∧ ∀ x ∈ t.c, x < 2 ^ (8 * P.lb)))) ∧
    (P.T = 1 → ∀ o o', (readTensor P (mapFile page file) fn 0 .edgeList).Out o → (readTensor P (mapFile page file) fn 0 .edgeList).Out o' → o = o') := by
  rw [readTensor_text (show usedType (mapFile page file) fn 0 .edgeList = .ok .edgeList from rfl), hwk]
  have hpad : 0 < (mapFile page file).pad := (mapFile_pad hp).mpr hd
  have hbytes : (mapFile page file).bytes = file := rfl
  generalize mapFile page file = μ at hpad hbytes ⊢
  subst hbytes
  obtain ⟨k, ho, hk, _⟩ := tensorOrder_any hpad hm false
  have hk := hk rfl
  have hr : Readable μ μ.bytes.length := by unfold Readable; omega
  have v := View.full μ
  have hrd : fileReader μ = rd μ.bytes.length μ.bytes := by simp [fileReader, rd]
  have hany := readTensorEl_exists μ (8 * P.lb) (8 * P.ob) wNone P.T (fileReader μ)
  rw [hrd] at ho hany ⊢
  obtain ⟨h1, h2, h3⟩ := readTensorEl_any (lw := 8 * P.lb) v hr hk hT ho (by omega)
  refine ⟨hany, ⟨k, tStart k μ.bytes P.T P.T, hk, ?_, ?_⟩, ?_⟩
  · have := tStart_le hk μ.bytes P.T P.T; omega
  · by_cases htorn : ∃ tid < P.T, Torn k μ.bytes P.T tid ∧ tStart k μ.bytes P.T (tid+1) = tStart k μ.bytes P.T P.T
    · exact .inl (h1 htorn)
    · refine .inr (fun o ho => ?_)
      obtain ⟨t, rfl, a, b, c, w, d⟩ := h2 (fun tid ht h he => htorn ⟨tid, ht, h, he⟩) o ho
      exact ⟨t, rfl, a, b, by rw [c, b], w, d⟩
  · intro hone o o' h h'
    rw [hone] at h h' h1 h3
    by_cases htorn : Torn k μ.bytes 1 0
    · rw [h1 ⟨0, by omega, htorn, rfl⟩ o h, h1 ⟨0, by omega, htorn, rfl⟩ o' h']
    · have hno : ∀ tid < 1, ¬ Torn k μ.bytes 1 tid := by
        intro tid ht
        rw [show tid = 0 by omega]; exact htorn
      obtain ⟨t, rfl, e1⟩ := h3 hno o h
      obtain ⟨t', rfl, e2⟩ := h3 hno o' h'
      rw [e1, e2]

/-- A file of garbage meets the hypotheses. -/
example : 0 < (4096 : Nat) ∧ ¬ (4096 : Nat) ∣ (str "%7,,8\n9#\n").length ∧ (str "%7,,8\n9#\n").length + 1 < 2 ^ (8 * 8) := by decide

/-! ## A cut last line -/

/-- C86, what holds of a file cut inside the first number of a line: the number is ignored.  `F` is a well-formed file with at
least one entry, ended by a newline; the digits `τ` come behind it. -/
theorem C86_lone_number (P : Params W) (hT : 0 < P.T) (μ : Mapping) (hpad : 0 < μ.pad) (fn : List Byte)
    (entry : Nat → List Byte → Option (List Nat × W)) (wp : List Nat × W → Prop) (hf : TFormat P.wk entry wp)
    (k : Nat) (hk : 0 < k) (h2 : 2 ≤ k + if P.wk.wgt then 1 else 0) (G τ : List Byte) (hτ : ∀ b ∈ τ, Spec.isDigit b = true)
    (hμ : μ.bytes = (G ++ [nl]) ++ τ) (hok : Spec.TensorOk P.wk.wgt entry k (G ++ [nl])) (hne : Spec.entries (entry k) (G ++ [nl]) ≠ [])
    (hwp : ∀ en ∈ Spec.entries (entry k) (G ++ [nl]), wp en) (hlab : ∀ en ∈ Spec.entries (entry k) (G ++ [nl]), ∀ x ∈ en.1, x < 2 ^ (8 * P.lb))
    (hkw : k + 1 < 2 ^ (8 * P.ob)) (hkm : k * (Spec.entries (entry k) (G ++ [nl])).length < 2 ^ (8 * P.ob)) :
    (readTensor P μ fn 0 .edgeList).All (fun t => HoldsT t P.wk.wgt (Spec.entries (entry k) (G ++ [nl])) ∧ t.order = k) := by
  have hd : ∀ b ∈ τ, isDigit b = true := fun b hb => by rw [← isDigit_spec]; exact hτ b hb
  have hn : nl ∉ τ := fun h => by have := hd _ h; revert this; decide
  have he : Spec.entries (entry k) ((G ++ [nl]) ++ τ) = Spec.entries (entry k) (G ++ [nl]) := by
    rw [entries_cut _ rfl hn]
    have : (if Spec.ints τ = [] then none else entry k τ) = none := lone_entry hf h2 hd
    rw [this]; simp
  have hr : Readable μ μ.bytes.length := by unfold Readable; omega
  have v : View μ μ.bytes.length τ := (View.full μ).of_suffix (by rw [hμ]; exact List.suffix_append _ _)
  have hfd : ∀ b ∈ firstIntL τ, isDigit b = true := fun b hb => hd b ((toStop_suffix _ _ _).subset hb)
  obtain ⟨hc, hs⟩ := lone_count (lw := 8 * P.lb) (wk := P.wk) hk hr v hfd (lone_entry hf h2 hd)
  rw [readTensor_text (show usedType μ fn 0 .edgeList = .ok .edgeList from rfl)]
  have := readTensorEl_cut (ow := 8 * P.ob) hpad hf hk rfl hn hμ hok hne (by rw [he]; exact hwp) (by rw [he]; exact hlab) hT hkw (by rw [he]; exact hkm) hc hs
  rwa [he] at this

/-- C86, unsigned weights: a complete last line without newline is an entry like any other. -/
theorem C86_weighted_last_line (P : Params Nat) (ww : Nat) (hwk : P.wk = wUint ww) (hT : 0 < P.T) (μ : Mapping) (hpad : 0 < μ.pad) (fn : List Byte)
    (k : Nat) (hk : 0 < k) (G τ : List Byte) (hn : nl ∉ τ) (xs : List Nat) (w : Nat) (hτ : Spec.tensorEntryW Spec.parseUnsigned k τ = some (xs, w))
    (hμ : μ.bytes = (G ++ [nl]) ++ τ) (hok : Spec.TensorOk true (Spec.tensorEntryW Spec.parseUnsigned) k (G ++ [nl]))
    (hne : Spec.entries (Spec.tensorEntryW Spec.parseUnsigned k) (G ++ [nl]) ≠ [])
    (hwp : ∀ en ∈ Spec.entries (Spec.tensorEntryW Spec.parseUnsigned k) (G ++ [nl]) ++ [(xs, w)], en.2 < 2 ^ ww ∧ ∀ x ∈ en.1, x < 2 ^ (8 * P.lb))
    (hkw : k + 1 < 2 ^ (8 * P.ob)) (hkm : k * ((Spec.entries (Spec.tensorEntryW Spec.parseUnsigned k) (G ++ [nl])).length + 1) < 2 ^ (8 * P.ob)) :
    (readTensor P μ fn 0 .edgeList).All (fun t => HoldsT t true (Spec.entries (Spec.tensorEntryW Spec.parseUnsigned k) (G ++ [nl]) ++ [(xs, w)]) ∧ t.order = k) := by
  have hf : TFormat P.wk (Spec.tensorEntryW Spec.parseUnsigned) (fun e => e.2 < 2 ^ ww) := by rw [hwk]; exact .uint ww
  have hwl := (hwp (xs, w) (by simp)).1
  obtain ⟨⟨_, hx, tail, htc, htw, htf⟩, hlen⟩ := hf.law (8 * P.lb) hk hn hτ hwl
  have hwg : P.wk.wgt = true := by rw [hwk]; rfl
  have htl := htf hwg
  have hint : Spec.ints τ ≠ [] := by
    intro h
    rw [← firstIntL_nil_iff τ hn] at h
    obtain ⟨x, xs', hxs⟩ := List.exists_cons_of_ne_nil hx
    simp only at hxs htc
    rw [hxs] at htc
    exact htc.1 h
  have hent : entOfT (Spec.tensorEntryW Spec.parseUnsigned k) τ = some (xs, w) := by unfold entOfT; rw [if_neg hint, hτ]
  have he : Spec.entries (Spec.tensorEntryW Spec.parseUnsigned k) ((G ++ [nl]) ++ τ) = Spec.entries (Spec.tensorEntryW Spec.parseUnsigned k) (G ++ [nl]) ++ [(xs, w)] := by
    rw [entries_cut _ rfl hn, if_neg hint, hτ]; rfl
  have hr : Readable μ μ.bytes.length := by unfold Readable; omega
  have v : View μ μ.bytes.length τ := (View.full μ).of_suffix (by rw [hμ]; exact List.suffix_append _ _)
  have hsuf := htc.suffix
  have hwe : WEnd P.wk μ μ.bytes.length tail w := by
    rw [hwk] at htw ⊢
    exact uint_end htw (fun h => hn (hsuf.subset h)) (htc.stop hx) htl hr (v.of_suffix hsuf)
  obtain ⟨hc, hs⟩ := full_tail (en := (xs, w)) hwg hr v hn hx hlen htc htl hwe hent
  rw [readTensor_text (show usedType μ fn 0 .edgeList = .ok .edgeList from rfl)]
  have := readTensorEl_cut (ow := 8 * P.ob) hpad hf hk rfl hn hμ (by rw [hwg]; exact hok) hne (by rw [he]; exact fun en h => (hwp en h).1)
    (by rw [he]; exact fun en h => (hwp en h).2) hT hkw (by rw [he, List.length_append]; exact hkm) hc hs
  rwa [he, hwg] at this

/-- A weighted file (unsigned weights of 8 bits) whose second entry lacks its newline. -/
example (fn : List Byte) : (readTensor binParams ⟨(str "0 1 9" ++ [nl]) ++ str "3 4 250", 9⟩ fn 0 .edgeList).All (fun t => t.c = [0, 1, 3, 4] ∧ t.w = [9, 250] ∧ t.order = 2) := by
  have he : Spec.entries (Spec.tensorEntryW Spec.parseUnsigned 2) (str "0 1 9" ++ [nl]) = [([0, 1], 9)] := by decide
  have hok : Spec.TensorOk true (Spec.tensorEntryW Spec.parseUnsigned) 2 (str "0 1 9" ++ [nl]) := by
    refine ⟨⟨by decide, by decide⟩, ?_⟩
    intro l hl
    have : Spec.firstData (str "0 1 9" ++ [nl]) = some (str "0 1 9") := by decide
    rw [this] at hl
    injection hl with hl
    subst hl
    exact ⟨plainLine_of (a := str "0 1 ") (b := 57) (by decide) (by decide) (by decide), by decide⟩
  refine (C86_weighted_last_line binParams 8 rfl (by decide) _ (by decide) fn 2 (by decide) (str "0 1 9") (str "3 4 250") (by decide) [3, 4] 250 (by decide) rfl hok
    (by rw [he]; decide) (by rw [he]; decide) (by decide) (by rw [he]; decide)).mono (fun t ht => ?_)
  rw [he] at ht
  exact ⟨ht.1.c, ht.1.w rfl, ht.2⟩

/-! ## What goes wrong -/

/-- The order and the lines of a well-formed file of coordinates, whatever comes behind it. -/
theorem cut_setup (μ : Mapping) (hpad : 0 < μ.pad) (lw ow : Nat) (k : Nat) (hk : 0 < k) (G σ : List Byte) (hμ : μ.bytes = (G ++ [nl]) ++ σ)
    (hok : Spec.TensorOk false Spec.tensorEntry0 k (G ++ [nl])) (hne : Spec.entries (Spec.tensorEntry0 k) (G ++ [nl]) ≠ []) (hkw : k + 1 < 2 ^ ow) :
    tensorOrder μ ow false (rd μ.bytes.length μ.bytes) = .ok k ∧
    ∀ l ∈ (Spec.lines (G ++ [nl])).dropLast, TEntOk lw wNone k (entOfT (Spec.tensorEntry0 k)) l := by
  have hnl : NoNl (Spec.lines (G ++ [nl])).dropLast := fun l hl => lines_noNl _ l (List.dropLast_subset _ hl)
  have hμ' : μ.bytes = text (Spec.lines (G ++ [nl])).dropLast ++ σ := by rw [hμ]; congr 1; exact text_of_nl rfl
  have hr : Readable μ μ.bytes.length := by unfold Readable; omega
  constructor
  · cases hfd : Spec.firstData (G ++ [nl]) with
    | none =>
      exfalso
      have hbl := firstData_none hfd
      apply hne
      unfold Spec.entries
      rw [List.filterMap_eq_nil_iff]
      intro l hl
      rw [if_pos (hbl l hl)]
    | some l =>
      obtain ⟨A, B, hAB, hA, hl⟩ := firstData_split hfd (by rw [getLast_nl rfl]; decide)
      obtain ⟨hp, hw⟩ := hok.first l hfd
      have v := View.full μ
      generalize hb : μ.bytes.length = n at *
      rw [hμ'] at v ⊢
      rw [hAB] at hnl v ⊢
      simp only [Bool.false_eq_true, if_false, Nat.add_zero] at hw
      rw [tensorOrder_eq hr hnl v hA hl hp (by omega), hw]
      rfl
  · intro l hl
    have hl' := List.dropLast_subset _ hl
    have hn := hnl l hl
    refine ⟨hn, ?_⟩
    unfold entOfT
    by_cases hi : Spec.ints l = []
    · rw [if_pos hi]; exact (firstIntL_nil_iff l hn).mpr hi
    · rw [if_neg hi]
      rcases hok.good.line l hl' with h | h
      · exact absurd h hi
      · obtain ⟨en, hen⟩ := Option.isSome_iff_exists.mp h
        rw [hen]
        exact TFormat.none.law lw hk hn hen trivial

theorem digitRuns_snoc {s : List Byte} {c : Byte} (hc : Spec.isDigit c = false) : Spec.digitRuns (s ++ [c]) = Spec.digitRuns s := by
  unfold Spec.digitRuns
  rw [List.splitOnP_append_cons _ _ (by simp [hc]), List.filter_append]
  simp

/-- What is read of a text with too few numbers. -/
theorem first_cut {k : Nat} {s : List Byte} (hcom : ∀ b ∈ s, Spec.isComment b = false)
    (hruns : (Spec.digitRuns s).length < k ∨ (Spec.digitRuns s).length = k ∧ EndsDigit s)
    (hval : 2 ≤ (Spec.digitRuns s).length ∨ 1 ≤ (Spec.digitRuns s).length ∧ ¬ EndsDigit s) :
    (takeInts k (firstIntL s)).2 = none ∧ (takeInts k (firstIntL s)).1 ≠ [] ∧ firstIntL s ≠ [] := by
  rw [firstIntL_plain (fun b hb => by rw [← isCom_spec]; exact hcom b hb)]
  have hr := digitRuns_toDigit s
  have hne : toDigitL s ≠ [] := by
    intro h
    rw [h, digitRuns_nil] at hr
    rw [← hr] at hval
    simp at hval
  have hends : EndsDigit (toDigitL s) ↔ EndsDigit s := by
    conv => rhs; rw [← List.takeWhile_append_dropWhile (p := fun b => !isDigit b) (l := s)]
    exact (endsDigit_append hne).symm
  obtain ⟨h1, h2, h3⟩ := takeInts_cut k (toDigitL s) (by rw [hr, hends]; exact hruns)
  rw [hr, hends] at h2 h3
  refine ⟨h1, ?_, hne⟩
  intro h
  rw [h] at h2 h3
  by_cases he : EndsDigit s
  · have := h2 he
    rcases hval with h | ⟨_, h⟩
    · simp at this; omega
    · exact h he
  · have := h3 he
    simp at this; omega

theorem endsDigit_iff {s : List Byte} : EndsDigit s ↔ ∃ a c, s = a ++ [c] ∧ Spec.isDigit c = true := by
  unfold EndsDigit
  simp only [isDigit_spec]

/-- **C86 fails** without weights: a file whose last line is not ended by a newline makes every load, with any number of threads and in every
execution, store outside of the coordinate array, as soon as the line ends in a digit and has at least two numbers, up to the order
of the tensor; in particular if it is the complete last entry. -/
theorem C86_unterminated_violated (P : Params Unit) (hwk : P.wk = wNone) (hT : 0 < P.T) (μ : Mapping) (hpad : 0 < μ.pad) (fn : List Byte)
    (k : Nat) (hk : 0 < k) (G τ : List Byte) (hn : nl ∉ τ) (hcom : ∀ b ∈ τ, Spec.isComment b = false)
    (h2 : 2 ≤ (Spec.digitRuns τ).length) (hle : (Spec.digitRuns τ).length ≤ k) (hend : ∃ a c, τ = a ++ [c] ∧ Spec.isDigit c = true)
    (hμ : μ.bytes = (G ++ [nl]) ++ τ) (hok : Spec.TensorOk false Spec.tensorEntry0 k (G ++ [nl])) (hne : Spec.entries (Spec.tensorEntry0 k) (G ++ [nl]) ≠ [])
    (hkw : k + 1 < 2 ^ (8 * P.ob)) (hfit : μ.bytes.length < 2 ^ (8 * P.ob)) :
    (readTensor P μ fn 0 .edgeList).Any ∧ ∀ out, (readTensor P μ fn 0 .edgeList).Out out → out = .error .oob := by
  rw [readTensor_text (show usedType μ fn 0 .edgeList = .ok .edgeList from rfl), hwk]
  refine ⟨readTensorEl_exists .., ?_⟩
  obtain ⟨ho, hls⟩ := cut_setup μ hpad (8 * P.lb) (8 * P.ob) k hk G τ hμ hok hne hkw
  have hends : EndsDigit τ := endsDigit_iff.mpr hend
  obtain ⟨t1, t2, t3⟩ := first_cut (k := k) hcom ((Nat.lt_or_eq_of_le hle).imp_right (fun h => ⟨h, hends⟩)) (.inl h2)
  have hnl : NoNl (Spec.lines (G ++ [nl])).dropLast := fun l hl => lines_noNl _ l (List.dropLast_subset _ hl)
  have hμ' : μ.bytes = text (Spec.lines (G ++ [nl])).dropLast ++ τ := by rw [hμ]; congr 1; exact text_of_nl rfl
  have hfirst : firstIntL (text (Spec.lines (G ++ [nl])).dropLast ++ τ) ≠ [] := by
    intro h
    have : ∀ (L : List (List Byte)), NoNl L → firstIntL (text L ++ τ) = [] → firstIntL τ = [] := by
      intro L hL h
      induction L with
      | nil => exact h
      | cons l L ih =>
        rw [text_cons, List.append_assoc, List.cons_append] at h
        have h5 := toStop_line _ isDigit_nl l (text L ++ τ) (hL l (by simp))
        unfold firstIntL at h
        rw [h5] at h
        split at h
        · exact ih (fun x hx => hL x (List.mem_cons_of_mem _ hx)) h
        · simp at h
    exact t3 (this _ hnl h)
  obtain ⟨tid, ht, J, hJ, hreg, _, hlast⟩ := last_region hnl hn hT hfirst
  have hfr : fileReader μ = rd μ.bytes.length μ.bytes := by simp [fileReader, rd]
  rw [hfr]
  refine torn_oob (View.full μ) (by unfold Readable; omega) hk ho hfit ht ?_ (by rw [hμ']; exact hlast)
  unfold Torn tPart
  rw [hμ', hreg]
  exact tScan_torn hk t1 t2 _ _ (fun l hl => hls l (List.mem_of_mem_drop hl)) (Nat.le_refl _)

/-- **C86 fails** without weights: a last line with too few numbers does the same, newline or not. -/
theorem C86_short_last_line_violated (P : Params Unit) (hwk : P.wk = wNone) (hT : 0 < P.T) (μ : Mapping) (hpad : 0 < μ.pad) (fn : List Byte)
    (k : Nat) (hk : 0 < k) (G τ : List Byte) (hn : nl ∉ τ) (hcom : ∀ b ∈ τ, Spec.isComment b = false)
    (h1 : 1 ≤ (Spec.digitRuns τ).length) (hlt : (Spec.digitRuns τ).length < k)
    (hμ : μ.bytes = (G ++ [nl]) ++ (τ ++ [nl])) (hok : Spec.TensorOk false Spec.tensorEntry0 k (G ++ [nl])) (hne : Spec.entries (Spec.tensorEntry0 k) (G ++ [nl]) ≠ [])
    (hkw : k + 1 < 2 ^ (8 * P.ob)) (hfit : μ.bytes.length < 2 ^ (8 * P.ob)) :
    (readTensor P μ fn 0 .edgeList).Any ∧ ∀ out, (readTensor P μ fn 0 .edgeList).Out out → out = .error .oob := by
  rw [readTensor_text (show usedType μ fn 0 .edgeList = .ok .edgeList from rfl), hwk]
  refine ⟨readTensorEl_exists .., ?_⟩
  obtain ⟨ho, hls⟩ := cut_setup μ hpad (8 * P.lb) (8 * P.ob) k hk G (τ ++ [nl]) hμ hok hne hkw
  have hruns := digitRuns_snoc (s := τ) (c := nl) (by decide)
  have hends : ¬ EndsDigit (τ ++ [nl]) := by
    rw [endsDigit_append (by simp)]
    rintro ⟨a, c, h, hc⟩
    have h3 := List.append_inj_right' (show [] ++ [nl] = a ++ [c] from h) (by rfl)
    injection h3 with h3 _
    rw [← h3] at hc
    revert hc; decide
  obtain ⟨t1, t2, t3⟩ := first_cut (k := k) (s := τ ++ [nl]) (fun b hb => by
    rcases List.mem_append.mp hb with h | h
    · exact hcom b h
    · rw [List.mem_singleton] at h; subst h; decide) (.inl (by rw [hruns]; exact hlt)) (.inr ⟨by rw [hruns]; exact h1, hends⟩)
  have hnl : NoNl (Spec.lines (G ++ [nl])).dropLast := fun l hl => lines_noNl _ l (List.dropLast_subset _ hl)
  have hnl' : NoNl ((Spec.lines (G ++ [nl])).dropLast ++ [τ]) := by
    intro l hl
    rcases List.mem_append.mp hl with h | h
    · exact hnl l h
    · rw [List.mem_singleton] at h; subst h; exact hn
  have hμ' : μ.bytes = text ((Spec.lines (G ++ [nl])).dropLast ++ [τ]) ++ [] := by
    rw [hμ, text_append, List.append_nil]
    congr 1
    · exact text_of_nl rfl
    · simp [text]
  have hmid : ∀ L : List (List Byte), text (L ++ [τ]) ++ [] = text L ++ (τ ++ [nl]) := by intro L; simp [text]
  have hfirst : firstIntL (text ((Spec.lines (G ++ [nl])).dropLast ++ [τ]) ++ []) ≠ [] := by
    intro h
    have : ∀ (L : List (List Byte)), NoNl L → firstIntL (text L ++ (τ ++ [nl])) = [] → firstIntL (τ ++ [nl]) = [] := by
      intro L hL h
      induction L with
      | nil => exact h
      | cons l L ih =>
        rw [text_cons, List.append_assoc, List.cons_append] at h
        have h5 := toStop_line _ isDigit_nl l (text L ++ (τ ++ [nl])) (hL l (by simp))
        unfold firstIntL at h
        rw [h5] at h
        split at h
        · exact ih (fun x hx => hL x (List.mem_cons_of_mem _ hx)) h
        · simp at h
    rw [hmid] at h
    exact t3 (this _ hnl h)
  obtain ⟨tid, ht, J, hJ, hreg, hregne, hlast⟩ := last_region hnl' (by simp) hT hfirst
  have hfr : fileReader μ = rd μ.bytes.length μ.bytes := by simp [fileReader, rd]
  rw [hfr]
  refine torn_oob (View.full μ) (by unfold Readable; omega) hk ho hfit ht ?_ (by rw [hμ']; exact hlast)
  have hJ' : J ≤ (Spec.lines (G ++ [nl])).dropLast.length := by
    rw [List.length_append, List.length_singleton] at hJ
    rcases Nat.lt_or_eq_of_le hJ with h | h
    · omega
    · exfalso
      apply hregne
      rw [hreg, List.drop_of_length_le (by rw [List.length_append, List.length_singleton]; omega)]
      rfl
  unfold Torn tPart
  rw [hμ', hreg, List.drop_append_of_le_length hJ', hmid]
  exact tScan_torn hk t1 t2 _ _ (fun l hl => hls l (List.mem_of_mem_drop hl)) (Nat.le_refl _)

/-- A file with the two entries `(0,1,2)` and `(30,4,5)`, both ended by a newline. -/
def ctBody : List Byte := str "# 3d\n0 1 2\n30 4 5"

theorem ct_ok : Spec.TensorOk false Spec.tensorEntry0 3 (ctBody ++ [nl]) := by
  refine ⟨⟨by decide, by decide⟩, ?_⟩
  intro l hl
  have : Spec.firstData (ctBody ++ [nl]) = some (str "0 1 2") := by decide
  rw [this] at hl
  injection hl with hl
  subst hl
  exact ⟨plainLine_of (a := str "0 1 ") (b := 50) (by decide) (by decide) (by decide), by decide⟩

theorem ct_entries : Spec.entries (Spec.tensorEntry0 3) (ctBody ++ [nl]) = [([0, 1, 2], ()), ([30, 4, 5], ())] := by decide

/-- Cut inside the first number of the third line the file still has its two entries ... -/
example (fn : List Byte) : (readTensor oneThread ⟨(ctBody ++ [nl]) ++ str "67", 9⟩ fn 0 .edgeList).All (fun t => t.c = [0, 1, 2, 30, 4, 5] ∧ t.m = 2 ∧ t.order = 3) := by
  refine (C86_lone_number oneThread (by decide) _ (by decide) fn Spec.tensorEntry0 _ .none 3 (by decide) (by decide) ctBody (str "67") (by decide) rfl ct_ok
    (by rw [ct_entries]; decide) (fun _ _ => trivial) (by rw [ct_entries]; decide) (by decide) (by rw [ct_entries]; decide)).mono (fun t ht => ?_)
  rw [ct_entries] at ht
  exact ⟨ht.1.c, ht.1.m, ht.2⟩

/-- ... and with the third line complete, but for its newline, it overflows the array. -/
example (fn : List Byte) : ∀ out, (readTensor oneThread ⟨(ctBody ++ [nl]) ++ str "6 7 8", 9⟩ fn 0 .edgeList).Out out → out = .error .oob :=
  (C86_unterminated_violated oneThread rfl (by decide) _ (by decide) fn 3 (by decide) ctBody (str "6 7 8") (by decide) (by decide) (by decide) (by decide)
    ⟨str "6 7 ", 56, by decide, by decide⟩ rfl ct_ok (by rw [ct_entries]; decide) (by decide) (by decide)).2

/-- So does a line of two numbers with its newline. -/
example (fn : List Byte) : ∀ out, (readTensor oneThread ⟨(ctBody ++ [nl]) ++ (str "6 7" ++ [nl]), 9⟩ fn 0 .edgeList).Out out → out = .error .oob :=
  (C86_short_last_line_violated oneThread rfl (by decide) _ (by decide) fn 3 (by decide) ctBody (str "6 7") (by decide) (by decide) (by decide) (by decide)
    rfl ct_ok (by rw [ct_entries]; decide) (by decide) (by decide)).2

/-- **C86 fails**: a line with too few numbers inside of the file.  One thread completes it with the first number of the next line; two threads
write the same places of the array, and which of the values stays depends on the schedule. -/
theorem C86_torn_entry_violated :
    (readTensorEl ⟨str "1 2 3\n4 5\n6 7 8\n", 9⟩ 32 64 wNone 1 (fileReader ⟨str "1 2 3\n4 5\n6 7 8\n", 9⟩)).Out (.ok ⟨[1, 2, 3, 4, 5, 6], [], 3, 2⟩) ∧
    (readTensorEl ⟨str "1 2 3\n4 5\n6 7 8\n", 9⟩ 32 64 wNone 2 (fileReader ⟨str "1 2 3\n4 5\n6 7 8\n", 9⟩)).Out (.ok ⟨[1, 2, 3, 6, 7, 8], [], 3, 2⟩) ∧
    (readTensorEl ⟨str "1 2 3\n4 5\n6 7 8\n", 9⟩ 32 64 wNone 2 (fileReader ⟨str "1 2 3\n4 5\n6 7 8\n", 9⟩)).Out (.ok ⟨[1, 2, 3, 4, 5, 8], [], 3, 2⟩) := by
  have hp1 : tensorPlan ⟨str "1 2 3\n4 5\n6 7 8\n", 9⟩ 32 64 wNone 1 (fileReader ⟨str "1 2 3\n4 5\n6 7 8\n", 9⟩) =
      .ok { order := 3, m := 2, threads := [[.setC 0 1, .setC 1 2, .setC 2 3, .setC 3 4, .setC 4 5, .setC 5 6]] } := by decide
  have hp2 : tensorPlan ⟨str "1 2 3\n4 5\n6 7 8\n", 9⟩ 32 64 wNone 2 (fileReader ⟨str "1 2 3\n4 5\n6 7 8\n", 9⟩) =
      .ok { order := 3, m := 2, threads := [[.setC 0 1, .setC 1 2, .setC 2 3, .setC 3 4, .setC 4 5], [.setC 3 6, .setC 4 7, .setC 5 8]] } := by decide
  refine ⟨⟨_, rfl, ?_⟩, ⟨_, rfl, ?_⟩, ⟨_, rfl, ?_⟩⟩
  · rw [hp1]
    exact ⟨_, ⟨fun _ => 0, trivial, rfl⟩, _, ⟨fun _ => (), trivial, rfl⟩, .ok ⟨[1, 2, 3, 4, 5, 6], []⟩, ⟨_, interleave_flatten _, by decide⟩, rfl⟩
  · rw [hp2]
    exact ⟨_, ⟨fun _ => 0, trivial, rfl⟩, _, ⟨fun _ => (), trivial, rfl⟩, .ok ⟨[1, 2, 3, 6, 7, 8], []⟩, ⟨_, interleave_flatten _, by decide⟩, rfl⟩
  · rw [hp2]
    exact ⟨_, ⟨fun _ => 0, trivial, rfl⟩, _, ⟨fun _ => (), trivial, rfl⟩, .ok ⟨[1, 2, 3, 4, 5, 8], []⟩, ⟨_, interleave_swap _ _, by decide⟩, rfl⟩

/-- **C04** `count_spaces_to_eol` over a reader that reaches the end of the file, whatever the text: it succeeds, the
end stays, the cursor ends on the first newline at or after the start (at the end if there is none), and the count is
at most the number of bytes that were left. -/
theorem C04_count_spaces (μ : Mapping) (hpad : 0 < μ.pad) (r : Reader) (hr : r.Ok μ) (he : r.e = μ.bytes.length) :
    ∃ c k, countSpaces μ r = .ok (c, ⟨k, r.e⟩) ∧ c ≤ r.e - r.d ∧
      Spec.IsFirst (Spec.ByteAt μ.bytes (fun b => b.toNat = '\n'.toNat)) r.d r.e k := by
  obtain ⟨v, hrd⟩ := reader_view hr
  obtain ⟨k, h1, h2, h3, h4, h5⟩ := suffix_position hr
    (List.dropWhile_suffix (l := Spec.slice μ.bytes r.d r.e) (fun b => b != nl))
  have hlen := rdr_slice_length (a := r.d) hr.len
  have hlen2 : (Spec.slice μ.bytes r.d μ.bytes.length).length = r.e - r.d := by rw [← he]; exact hlen
  rw [he] at v hrd h1
  obtain ⟨c, hc, hcl⟩ := countSpacesN_any hpad (r.e - r.d) _ 0 (by omega) v
  refine ⟨c, k, ?_, by omega, ?_⟩
  · unfold countSpaces
    conv => lhs; arg 4; rw [hrd]
    rw [hc, Nat.zero_add, he]
    exact congrArg (fun x => Except.ok (c, x)) h1
  · obtain ⟨k', h6, h7, h8⟩ := scan_position hr (fun b => b != nl)
    have : k' = k := by
      have e1 := congrArg List.length (h4.symm.trans h8)
      rw [rdr_slice_length hr.len, rdr_slice_length hr.len] at e1
      have := h7.le
      omega
    subst this
    refine IsFirst.congr h7 (fun i => ?_)
    unfold Spec.ByteAt
    constructor <;> rintro ⟨b, hb, hn⟩ <;> refine ⟨b, hb, ?_⟩
    · have : b = nl := by simpa using hn
      subst this; rfl
    · have : b = nl := by
        apply UInt8.toNat_inj.mp
        rw [hn]; rfl
      simp [this]

example : countSpaces ⟨str "1 2 x % 3\n4", 1⟩ ⟨0, 11⟩ = .ok (2, ⟨9, 11⟩) ∧ countSpaces ⟨str "1 2 3", 1⟩ ⟨2, 5⟩ = .ok (2, ⟨5, 5⟩) := by
  decide

/-- Over a reader that was cut short with `smaller_end` the unguarded `while (*d == ' ')` (impl/pigo.impl.hpp 456) takes
the cursor past the end of the reader. -/
theorem C04_count_spaces_violated :
    (Reader.mk 0 2).Ok ⟨str "1    2", 1⟩ ∧ countSpaces ⟨str "1    2", 1⟩ ⟨0, 2⟩ = .ok (1, ⟨5, 2⟩) :=
  ⟨⟨by decide, by decide⟩, by decide⟩

/-- **C04** `peek` gives the byte under the cursor, and 0 at the end, where it loads nothing. -/
theorem C04_peek (μ : Mapping) (r : Reader) (hr : r.Ok μ) :
    ∃ b, peek μ r = .ok b ∧ (r.d < r.e → μ.bytes[r.d]? = some b) ∧ (r.d = r.e → b.toNat = 0) := by
  unfold peek
  split
  · rename_i h
    exact ⟨0, rfl, fun h2 => by omega, fun _ => rfl⟩
  · rename_i h
    have h1 := hr.le
    have h2 := hr.len
    have hlt : r.d < μ.bytes.length := by omega
    refine ⟨μ.bytes[r.d], ?_, fun _ => List.getElem?_eq_getElem hlt, fun h3 => absurd h3 h⟩
    simp [Mapping.get, hlt]

example : peek ⟨str "ab", 0⟩ ⟨1, 2⟩ = .ok 98 ∧ peek ⟨str "ab", 0⟩ ⟨2, 2⟩ = .ok 0 := by decide

/-- **C04** `at_zero` is true exactly at a `0` that no digit follows; behind the end it is false and nothing is loaded. -/
theorem C04_at_zero (μ : Mapping) (r : Reader) :
    (r.e < r.d → atZero μ r = .ok false) ∧
    (r.d ≤ r.e → ∀ a b, μ.bytes[r.d]? = some a → μ.bytes[r.d + 1]? = some b →
      atZero μ r = .ok (decide (a = 48 ∧ ¬ (48 ≤ b.toNat ∧ b.toNat ≤ 57)))) := by
  refine ⟨fun h => if_pos h, fun h a b ha hb => ?_⟩
  rw [atZero, if_neg (by omega)]
  have e1 : μ.get r.d = .ok a := by rw [Mapping.get, ha]
  have e2 : μ.get (r.d + 1) = .ok b := by rw [Mapping.get, hb]
  rw [e1, ok_bind]
  by_cases h48 : a = 48
  · subst h48
    simp only [bne_self_eq_false, Bool.false_eq_true, if_false, e2, ok_bind]
    by_cases hd : 48 ≤ b.toNat ∧ b.toNat ≤ 57
    · have : isDigit b = true := by
        simp only [isDigit, Bool.and_eq_true, decide_eq_true_eq, UInt8.le_iff_toNat_le]; exact hd
      simp [this, hd]
    · have : isDigit b = false := by
        cases hx : isDigit b with
        | false => rfl
        | true =>
          simp only [isDigit, Bool.and_eq_true, decide_eq_true_eq, UInt8.le_iff_toNat_le] at hx
          exact absurd hx hd
      simp only [this]
      simp
      omega
  · simp [h48]

example : atZero ⟨str "0 01", 0⟩ ⟨0, 4⟩ = .ok true ∧ atZero ⟨str "0 01", 0⟩ ⟨2, 4⟩ = .ok false ∧ atZero ⟨str "0 01", 0⟩ ⟨5, 4⟩ = .ok false := by decide

end Pigo
