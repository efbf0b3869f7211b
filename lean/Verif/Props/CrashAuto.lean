import Verif.Props.CrashGraph

/-!
# C89: loading what an interrupted save leaves, with the type found out automatically

A file whose name of the format is not complete is rejected, or taken for an edge list without entries.
-/

namespace Pigo

open Spec

variable {W : Type}

/-! ## The name of the format is written first -/

/-- The name `mg` of the format is cut after `j` bytes, or complete. -/
def MagicMid (n : Nat) (mg s : List Byte) : Prop := (∃ j, j ≤ mg.length ∧ s = cutFile n mg j) ∨ (mg <+: s ∧ s.length = n)

theorem between_head {n : Nat} {H v : List Byte} {done : List (List Byte)} (hn : 0 < n) (hH : H <+: done.flatten) (he : done.flatten.length + v.length ≤ n)
    {s : List Byte} (hs : Between (stage n done) (stage n (done ++ [v])) s) : H <+: s ∧ s.length = n :=
  ⟨(between_within hn hH he (Nat.le_refl _) hs).head, (between_within hn hH he (Nat.le_refl _) hs).len⟩

theorem magic_open {old mg : List Byte} {n : Nat} (hn : mg.length < n) {k : WFile → Obs (List Byte)}
    (hk : ∀ f, Done f n [mg] → (k f).Seg (fun _ => True) (fun s => s = old ∨ s = [] ∨ MagicMid n mg s)) :
    (openO old n >>= fun f => wBytesO mg f >>= k).Seg (fun _ => True) (fun s => s = old ∨ s = [] ∨ MagicMid n mg s) := by
  refine Obs.Seg.bind ((openO_seg (by omega)).mono ?_) (fun f hf => ?_)
  · rintro s (h | h | h)
    · exact .inl h
    · exact .inr (.inl h)
    · exact .inr (.inr (.inl ⟨0, by omega, by rw [h, stage_cut (F := mg) (by simp)]; rfl⟩))
  refine Obs.Seg.bind (P := fun f => Done f n [mg]) ⟨(wBytesO_seg hf mg (by simp; omega)).1, fun s hs => ?_⟩ (fun f hf => hk f hf)
  obtain ⟨j, _, hj, h⟩ := wBytesO_cut hf (bs := mg) (F := mg) (by simp) (by omega) hs
  exact .inr (.inr (.inl ⟨j, by simpa using hj, h⟩))

theorem saveCooO_magic {old : List Byte} {T lb ob : Nat} (hT : 0 < T) {wgt : Bool} (cw : Codec W) {c : Coo W} (h : FitsCoo lb ob wgt cw c)
    {n : Nat} (hn : n = cooSaveSize lb ob wgt cw c) {s : List Byte} (hs : (saveCooO old T lb ob wgt cw c).seen s) :
    s = old ∨ s = [] ∨ MagicMid n cooMagic s := by
  have hl := cooBytes_length cw h
  have l11 : cooMagic.length = 11 := by decide
  simp only [cooBytes, List.length_append, encLE_length, rawLE_length, h.x.1, h.y.1, weights_length cw h.w.1] at hl
  have key : (saveCooO old T lb ob wgt cw c).Seg (fun _ => True) (fun s => s = old ∨ s = [] ∨ MagicMid n cooMagic s) := by
    unfold saveCooO
    rw [← hn]
    refine magic_open (by omega) (fun f hf => ?_)
    have hser : ∀ {f : WFile} {d : List (List Byte)} {bs : List Byte}, Done f n d → cooMagic <+: d.flatten → d.flatten.length + bs.length ≤ n →
        (wBytesO bs f).Seg (fun f => Done f n (d ++ [bs])) (fun s => s = old ∨ s = [] ∨ MagicMid n cooMagic s) :=
      fun hd hp hb => (wBytesO_seg hd _ hb).mono fun s hs => .inr (.inr (.inr (between_head hd.pos hp hb hs)))
    refine Obs.Seg.bind (hser hf (by simp) (by simp; omega)) (fun f hf => ?_)
    refine Obs.Seg.bind (hser hf (by simp [List.append_assoc]) (by simp; omega)) (fun f hf => ?_)
    refine Obs.Seg.bind (hser hf (by simp [List.append_assoc]) (by simp; omega)) (fun f hf => ?_)
    refine Obs.Seg.bind (hser hf (by simp [List.append_assoc]) (by simp; omega)) (fun f hf => ?_)
    refine Obs.Seg.bind (hser hf (by simp [List.append_assoc]) (by simp; omega)) (fun f hf => ?_)
    refine Obs.Seg.bind (hser hf (by simp [List.append_assoc]) (by simp; omega)) (fun f hf => ?_)
    have hpar : ∀ {f : WFile} {d : List (List Byte)} {v : List Byte} {p : Obs WFile}, Done f n d → cooMagic <+: d.flatten → d.flatten.length + v.length ≤ n →
        p.Seg (fun f => Done f n (d ++ [v])) (Between (stage n d) (stage n (d ++ [v]))) →
        p.Seg (fun f => Done f n (d ++ [v])) (fun s => s = old ∨ s = [] ∨ MagicMid n cooMagic s) :=
      fun hd hp hb hseg => hseg.mono fun s hs => .inr (.inr (.inr (between_head hd.pos hp hb hs)))
    refine Obs.Seg.bind (hpar (f := f) hf (by simp [List.append_assoc]) (by simp [rawLE_length, h.x.1]; omega) (parWriteO_seg hf hT _ (by rw [rawLE_length, h.x.1]) (by simp; omega))) (fun f hf => ?_)
    refine Obs.Seg.bind (hpar (f := f) hf (by simp [List.append_assoc]) (by simp [rawLE_length, h.x.1, h.y.1]; omega) (parWriteO_seg hf hT _ (by rw [rawLE_length, h.y.1]) (by simp [rawLE_length, h.x.1]; omega))) (fun f hf => ?_)
    refine Obs.Seg.bind (hpar (f := f) hf (by simp [List.append_assoc]) (by simp [rawLE_length, h.x.1, h.y.1, weights_length cw h.w.1]; omega) (saveWeightsO_seg hf hT cw h.w.1 (by simp [rawLE_length, h.x.1, h.y.1]; omega))) (fun f hf => ?_)
    exact Obs.Seg.pure trivial
  exact key.2 s hs

theorem saveTensorO_magic {old : List Byte} {T lb ob : Nat} (hT : 0 < T) {wgt : Bool} (cw : Codec W) {t : Tensor W} (h : FitsTensor lb ob wgt cw t)
    {n : Nat} (hn : n = tensorSaveSize lb ob wgt cw t) {s : List Byte} (hs : (saveTensorO old T lb ob wgt cw t).seen s) :
    s = old ∨ s = [] ∨ MagicMid n tensorMagic s := by
  have hl := tensorBytes_length cw h
  have l13 : tensorMagic.length = 13 := by decide
  simp only [tensorBytes, List.length_append, encLE_length, rawLE_length, wsize_length, h.c.1, weights_length cw h.w.1] at hl
  have key : (saveTensorO old T lb ob wgt cw t).Seg (fun _ => True) (fun s => s = old ∨ s = [] ∨ MagicMid n tensorMagic s) := by
    unfold saveTensorO
    rw [← hn]
    refine magic_open (by omega) (fun f hf => ?_)
    have hser : ∀ {f : WFile} {d : List (List Byte)} {bs : List Byte}, Done f n d → tensorMagic <+: d.flatten → d.flatten.length + bs.length ≤ n →
        (wBytesO bs f).Seg (fun f => Done f n (d ++ [bs])) (fun s => s = old ∨ s = [] ∨ MagicMid n tensorMagic s) :=
      fun hd hp hb => (wBytesO_seg hd _ hb).mono fun s hs => .inr (.inr (.inr (between_head hd.pos hp hb hs)))
    refine Obs.Seg.bind (hser hf (by simp) (by simp; omega)) (fun f hf => ?_)
    refine Obs.Seg.bind (hser hf (by simp [List.append_assoc]) (by simp; omega)) (fun f hf => ?_)
    refine Obs.Seg.bind (hser hf (by simp [List.append_assoc]) (by simp [wsize_length]; omega)) (fun f hf => ?_)
    refine Obs.Seg.bind (hser hf (by simp [List.append_assoc]) (by simp [wsize_length]; omega)) (fun f hf => ?_)
    refine Obs.Seg.bind (hser hf (by simp [List.append_assoc]) (by simp [wsize_length]; omega)) (fun f hf => ?_)
    have hpar : ∀ {f : WFile} {d : List (List Byte)} {v : List Byte} {p : Obs WFile}, Done f n d → tensorMagic <+: d.flatten → d.flatten.length + v.length ≤ n →
        p.Seg (fun f => Done f n (d ++ [v])) (Between (stage n d) (stage n (d ++ [v]))) →
        p.Seg (fun f => Done f n (d ++ [v])) (fun s => s = old ∨ s = [] ∨ MagicMid n tensorMagic s) :=
      fun hd hp hb hseg => hseg.mono fun s hs => .inr (.inr (.inr (between_head hd.pos hp hb hs)))
    refine Obs.Seg.bind (hpar (f := f) hf (by simp [List.append_assoc]) (by simp [wsize_length, rawLE_length, h.c.1]; omega) (parWriteO_seg hf hT _ (by rw [rawLE_length, h.c.1, Nat.mul_assoc]) (by simp [wsize_length, Nat.mul_assoc]; omega))) (fun f hf => ?_)
    refine Obs.Seg.bind (hpar (f := f) hf (by simp [List.append_assoc]) (by simp [wsize_length, rawLE_length, h.c.1, weights_length cw h.w.1]; omega) (saveWeightsO_seg hf hT cw h.w.1 (by simp [wsize_length, rawLE_length, h.c.1]; omega))) (fun f hf => ?_)
    exact Obs.Seg.pure trivial
  exact key.2 s hs

/-! ## A cut name -/

theorem cutFile_next {n j : Nat} {mg : List Byte} (hj : j < mg.length) (hn : mg.length < n) : mg.take j ++ [0] <+: cutFile n mg j := by
  refine ⟨(blank n).drop (j + 1), ?_⟩
  have hb : (blank n).drop j = 0 :: (blank n).drop (j + 1) := by
    rw [List.drop_eq_getElem_cons (i := j) (by rw [blank_length (by omega)]; omega)]
    congr 1
    have := blank_get (n := n) (i := j) (by omega)
    exact (List.getElem?_eq_some_iff.mp this).2
  rw [cutFile, hb, List.append_assoc]; rfl

/-- A file whose name of the format is cut: rejected, or no format at all. -/
theorem guess_cut {q : List Byte × FileType} (hq : q ∈ magics) {n j : Nat} (hj : j < q.1.length) (hn : q.1.length < n) (fn : List Byte) (pad : Nat) :
    guessFileType ⟨cutFile n q.1 j, pad⟩ fn 0 = .error .error ∨
    (¬ HasAt ⟨cutFile n q.1 j, pad⟩ 0 (str "PIGO") ∧ ∀ c ∈ cutFile n q.1 j, isDigit c = false) := by
  have hp := cutFile_next hj hn
  have hget : ∀ i ≤ j, ((⟨cutFile n q.1 j, pad⟩ : Mapping).bytes.drop 0)[i]? = (q.1.take j ++ [0])[i]? := by
    intro i hi
    obtain ⟨u, hu⟩ := hp
    show (List.drop 0 (cutFile n q.1 j))[i]? = _
    rw [List.drop_zero, ← hu, List.getElem?_append_left (by rw [List.length_append, List.length_take, List.length_singleton]; omega)]
  rcases Nat.lt_or_ge j 4 with h4 | h4
  · right
    constructor
    · have : ∀ q ∈ magics, ∀ j < 4, (str "PIGO")[j]? ≠ some 0 ∧ (q.1.take j ++ [0])[j]? = some 0 := by decide
      exact not_hasAt_of_get (i := j) (b := 0) (by rw [show (str "PIGO").length = 4 by decide]; exact h4) (this q hq j h4).1
        (by rw [hget j (Nat.le_refl _)]; exact (this q hq j h4).2)
    · intro c hc
      rcases List.mem_append.mp hc with hc | hc
      · have : ∀ q ∈ magics, ∀ c ∈ q.1.take 4, isDigit c = false := by decide
        refine this q hq c ?_
        rw [show q.1.take j = (q.1.take 4).take j by rw [List.take_take, Nat.min_eq_left (by omega)]] at hc
        exact List.mem_of_mem_take hc
      · exact blank_no_digits n c (List.mem_of_mem_drop hc)
  · left
    refine C45_unknown_magic _ fn 0 (fun m hm => ?_) ⟨?_, ?_⟩
    · have : ∀ q ∈ magics, ∀ j < q.1.length, 4 ≤ j → ∀ m ∈ magics, ∃ i, i ≤ j ∧ i < m.1.length ∧ (q.1.take j ++ [0])[i]? ≠ m.1[i]? := by
        have h : ∀ q ∈ magics, ∀ j < q.1.length, 4 ≤ j → ∀ m ∈ magics, ∃ i < 15, i ≤ j ∧ i < m.1.length ∧ (q.1.take j ++ [0])[i]? ≠ m.1[i]? := by decide
        intro q hq j hj h4 m hm
        obtain ⟨i, _, h⟩ := h q hq j hj h4 m hm
        exact ⟨i, h⟩
      obtain ⟨i, h1, h2, h3⟩ := this q hq j hj h4 m hm
      rintro ⟨⟨u, hu⟩, _⟩
      apply h3
      rw [← hget i h1, ← hu, List.getElem?_append_left h2]
    · show str "PIGO" <+: List.drop 0 (cutFile n q.1 j)
      rw [List.drop_zero]
      refine List.IsPrefix.trans ?_ (List.prefix_append _ _)
      have : ∀ q ∈ magics, str "PIGO" = q.1.take 4 := by decide
      rw [this q hq, show q.1.take 4 = (q.1.take j).take 4 by rw [List.take_take, Nat.min_eq_left h4]]
      exact List.take_prefix _ _
    · show 0 + (str "PIGO").length < (cutFile n q.1 j).length
      rw [cutFile, List.length_append, List.length_take, List.length_drop, blank_length (by omega), show (str "PIGO").length = 4 by decide]
      omega

/-! ## Text without digits -/

theorem regions_no_digits {μ : Mapping} {e : Nat} {s : List Byte} (v : View μ e s) (hr : Readable μ e) (hs : ∀ c ∈ s, isDigit c = false) {T tid : Nat} (ht : tid < T) :
    elRegion μ (rd e s) T tid = .ok (rd e []) := by
  have hnil : ∀ tid, startL s T tid = [] := by
    intro tid
    cases h : startL s T tid with
    | nil => rfl
    | cons c t =>
      have h1 := startL_digit c t h
      have h2 := hs c ((startL_suffix s T tid).subset (by rw [h]; exact List.mem_cons_self ..))
      rw [h1] at h2; cases h2
  obtain ⟨R, h1, h2, _, _⟩ := elRegion_any v hr ht
  rw [hnil, hnil, List.append_nil] at h1
  subst h1
  rw [h2, hnil]
  rfl

/-- Text without a digit is a tensor without entries. -/
theorem readTensorEl_no_digits {μ : Mapping} {e : Nat} {s : List Byte} (v : View μ e s) (hr : Readable μ e) (hs : ∀ c ∈ s, isDigit c = false)
    (lw ow : Nat) (wk : WKind W) {T : Nat} (hT : 0 < T) : (readTensorEl μ lw ow wk T (rd e s)).All (fun t => t.m = 0 ∧ t.c = [] ∧ t.w = []) := by
  have hfirst : firstIntL s = [] := by
    cases h : firstIntL s with
    | nil => rfl
    | cons c t =>
      have h1 := toStop_head isDigit false s c t h
      have h2 := hs c ((toStop_suffix isDigit false s).subset (by rw [show toStop isDigit false s = c :: t from h]; exact List.mem_cons_self ..))
      rw [h1.1] at h2; cases h2
  have hord : ∃ o, tensorOrder μ ow wk.wgt (rd e s) = .ok o := by
    unfold tensorOrder
    rw [moveToFirstInt_eq v hr, hfirst, ok_bind]
    simp only [countSpaces, rd, List.length_nil, Nat.sub_zero, Nat.sub_self, countSpacesN, Nat.lt_irrefl, if_false, ok_bind]
    exact ⟨_, rfl⟩
  obtain ⟨o, ho⟩ := hord
  have hreg : mapE (elRegion μ (rd e s) T) (List.range T) = .ok ((List.range T).map (fun _ => rd e [])) :=
    mapE_ok _ _ _ (fun tid ht => regions_no_digits v hr hs (List.mem_range.mp ht))
  have hcnt : mapE (tensorCountAll μ lw wk o) ((List.range T).map (fun _ => rd e [])) = .ok ((List.range T).map (fun _ => 0)) :=
    mapE_map_ok _ _ _ _ (fun tid _ => by simp [tensorCountAll, rd, whileGood, Reader.good, ok_bind])
  have hz : (prefixSums 0 ((List.range T).map (fun _ => 0))).getD (T - 1) 0 = 0 := by
    rw [prefixSums_getD _ _ _ (by simp; omega), ← List.map_take, Nat.zero_add]
    exact List.sum_eq_zero_iff_forall_eq_nat.mpr fun x hx => by obtain ⟨_, _, h⟩ := List.mem_map.mp hx; exact h.symm
  have hset : ∀ offs, mapE (tensorSetAll μ lw wk o offs) ((List.range T).zip ((List.range T).map (fun _ => rd e []))) = .ok ((List.range T).map (fun _ => [])) := by
    intro offs
    rw [List.zip_map_right, show (List.range T).zip (List.range T) = (List.range T).map (fun i => (i, i)) by
      apply List.ext_getElem (by simp); intros; simp, List.map_map]
    exact mapE_map_ok _ _ _ _ (fun tid _ => by simp [tensorSetAll, rd, whileGood, Reader.good, ok_bind])
  have hplan : tensorPlan μ lw ow wk T (rd e s) = .ok { order := o, m := 0, threads := (List.range T).map (fun _ => []) } := by
    unfold tensorPlan
    rw [ho, ok_bind, hreg, ok_bind, hcnt, ok_bind]
    dsimp only
    rw [hset, ok_bind, hz, Nat.zero_mod]
  unfold readTensorEl
  refine R.All.step hplan (R.All.bind R.All.any fun jc _ => R.All.bind R.All.any fun jw _ => ?_)
  refine R.All.bind (P := fun mem => mem.c = [] ∧ mem.w = []) (R.All.par fun sched hsch => ?_) fun mem hm => R.All.pure ⟨rfl, hm⟩
  have : sched = [] := by
    have hp := hsch.perm
    have : ((List.range T).map (fun _ => ([] : List (TAct W)))).flatten = [] := by simp
    rw [this] at hp
    exact hp.eq_nil
  subst this
  refine ⟨_, rfl, ?_, ?_⟩
  · simp [alloc, inOrd]
  · show (if wk.wgt then alloc jw 0 else []) = []
    split <;> simp [alloc]

/-! ## The properties -/

/-- **C89 (COO, type found out automatically)**: what an interrupted save of a COO with at least one entry leaves is the old file, an empty file, or a file that, when
loaded under a name that does not end with `.mtx` or `.graph`, throws `Error`, gives a COO with sizes that are not larger than those saved and arrays of `m` entries,
or gives a COO without entries.  Nothing is read outside of the mapping. -/
theorem C89_coo_load_auto (P : Params W) (hT' : 0 < P.T) (hlb : 0 < P.lb) (cfg : Cfg) (T : Nat) (hT : 0 < T) (old : List Byte) (c : Coo W)
    (h : FitsCoo P.lb P.ob P.wk.wgt P.cw c) (hm : 0 < c.m) (s : List Byte) (hs : (saveCooO old T P.lb P.ob P.wk.wgt P.cw c).seen s)
    (fn : List Byte) (h1 : ¬ str ".mtx" <:+ fn) (h2 : ¬ str ".graph" <:+ fn) (pad : Nat) (hpad : 0 < pad) :
    s = old ∨ s = [] ∨ (readCoo P cfg ⟨s, pad⟩ fn 0 .auto).Throws ∨
    (readCoo P cfg ⟨s, pad⟩ fn 0 .auto).All (fun r => r.m ≤ c.m ∧ r.nrows ≤ c.nrows ∧ r.ncols ≤ c.ncols ∧ r.n ≤ c.n ∧ r.x.length = r.m ∧ r.y.length = r.m) ∨
    (readCoo P cfg ⟨s, pad⟩ fn 0 .auto).All (fun r => r.m = 0 ∧ r.x = [] ∧ r.y = []) := by
  obtain ⟨n, hn⟩ : ∃ n, n = cooSaveSize P.lb P.ob P.wk.wgt P.cw c := ⟨_, rfl⟩
  have l11 : cooMagic.length = 11 := by decide
  have hsz : 13 < n := by
    have : 0 < P.lb * c.m := Nat.mul_pos hlb hm
    rw [hn]; unfold cooSaveSize; omega
  have full : cooMagic <+: s → 11 < s.length → s = old ∨ s = [] ∨ (readCoo P cfg ⟨s, pad⟩ fn 0 .auto).Throws ∨
      (readCoo P cfg ⟨s, pad⟩ fn 0 .auto).All (fun r => r.m ≤ c.m ∧ r.nrows ≤ c.nrows ∧ r.ncols ≤ c.ncols ∧ r.n ≤ c.n ∧ r.x.length = r.m ∧ r.y.length = r.m) ∨
      (readCoo P cfg ⟨s, pad⟩ fn 0 .auto).All (fun r => r.m = 0 ∧ r.x = [] ∧ r.y = []) := by
    intro hp hl
    have hty : usedType ⟨s, pad⟩ fn 0 .auto = .ok .cooBin := by
      unfold usedType
      rw [if_pos rfl]
      exact C45_magic _ fn 0 (str "PIGO-COO-v1", .cooBin) (by simp [magics]) ⟨by rw [List.drop_zero]; exact hp, by rw [show (str "PIGO-COO-v1").length = 11 by decide]; show _ < s.length; omega⟩
    have he : readCoo P cfg ⟨s, pad⟩ fn 0 .auto = readCoo P cfg ⟨s, pad⟩ fn 0 .cooBin := by
      unfold readCoo
      rw [R.lift_bind hty, R.lift_bind (show usedType ⟨s, pad⟩ fn 0 .cooBin = .ok .cooBin from rfl)]
    rcases C89_coo_load P hT' hlb cfg T hT old c h hm s hs fn pad with h | h | h | h
    · exact .inl h
    · exact .inr (.inl h)
    · exact .inr (.inr (.inl (he ▸ h)))
    · exact .inr (.inr (.inr (.inl (he ▸ h))))
  rcases saveCooO_magic hT P.cw h hn hs with h | h | ⟨j, hj, h⟩ | ⟨h, hl⟩
  · exact .inl h
  · exact .inr (.inl h)
  · have hsl : s.length = n := by
      rw [h, cutFile, List.length_append, List.length_take, List.length_drop, blank_length (by omega)]; omega
    by_cases hj' : j = cooMagic.length
    · refine full ?_ (by omega)
      rw [h, cutFile, hj', List.take_length]
      exact List.prefix_append _ _
    · right; right
      rw [h]
      rcases guess_cut (q := (cooMagic, .cooBin)) (by simp [magics, cooMagic, str]) (n := n) (j := j) (by show j < cooMagic.length; omega) (by show cooMagic.length < n; omega) fn pad with hg | ⟨hg, hnd⟩
      · left
        unfold readCoo
        exact R.Throws.bind_left (R.Throws.lift (by unfold usedType; rw [if_pos rfl]; exact hg))
      · right; right
        generalize hs' : cutFile n cooMagic j = s' at hg hnd ⊢
        have hty : usedType ⟨s', pad⟩ fn 0 .auto = .ok .edgeList := by
          unfold usedType
          rw [if_pos rfl, C45_by_name _ _ _ hg, if_neg h1, if_neg h2]
        unfold readCoo
        refine R.All.step hty ?_
        rw [if_pos (by simp)]
        unfold readCooFmt
        rw [if_neg (by simp), if_pos rfl]
        refine R.All.bind (P := fun r => r.1 = cooOf (8 * P.lb) cfg P.wk.wgt []) (R.All.bind (P := fun r => r = cooOf (8 * P.lb) cfg P.wk.wgt []) ?_ (fun r hr => R.All.pure hr))
          (fun r hr => R.All.pure (by rw [hr]; exact ⟨rfl, rfl, rfl⟩))
        intro o ho
        refine ⟨_, readEl_no_digits (μ := ⟨s', pad⟩) (e := s'.length) (s := s') ⟨by simp, Nat.le_refl _⟩ ?_ hnd _ (8 * P.ob) _ _ hT' o ?_, rfl⟩
        · show s'.length < s'.length + pad
          omega
        · have : readerAt ⟨s', pad⟩ 0 = rd s'.length s' := by simp [readerAt, rd]
          rw [← this]; exact ho
  · exact full h (by omega)

example := C89_coo_load_auto { T := 4, lb := 4, ob := 8, wk := wSint 32, cw := codecInt 4 (by decide), stor := .pointer } (by decide) (by decide) {} 3
  (by decide) (str "old") binCoo binCoo_fits (by decide)

/-- What is in the file while a CSR is saved. -/
theorem saveCsrO_mid {old : List Byte} {T lb ob : Nat} (hT : 0 < T) {wgt : Bool} (cw : Codec W) {c : Csr W} (h : FitsCsr lb ob wgt cw c) {n : Nat}
    (hn : n = csrSaveSize lb ob wgt cw c) {s : List Byte} (hs : (saveCsrO old T lb ob wgt cw c).seen s) :
    s = old ∨ s = [] ∨ CsrMid n [] lb ob wgt cw c s := by
  have hpos := csrSaveSize_pos lb ob wgt cw c
  have key : (saveCsrO old T lb ob wgt cw c).Seg (fun _ => True) (fun s => s = old ∨ s = [] ∨ CsrMid n [] lb ob wgt cw c s) := by
    unfold saveCsrO
    rw [← hn]
    refine Obs.Seg.bind ((openO_seg (by omega)).mono ?_) (fun f hf => ?_)
    · rintro s (h | h | h)
      · exact .inl h
      · exact .inr (.inl h)
      · exact .inr (.inr (.inl ⟨0, by omega, by rw [h, stage_cut (F := [] ++ csrBytes lb ob wgt cw c) (by simp)]; rfl⟩))
    exact Obs.Seg.bind ((saveCsrToO_mid hT cw h hf (by simp; omega) (by simp)).mono (fun s h => .inr (.inr h))) (fun f hf => Obs.Seg.pure trivial)
  exact key.2 s hs

/-- **C89 (CSR, type found out automatically)**: as for COO, also with no entries. -/
theorem C89_csr_load_auto (P : Params W) (hT' : 0 < P.T) (hlb : 0 < P.lb ∧ P.lb < 256) (hob : 0 < P.ob ∧ P.ob < 256) (T : Nat) (hT : 0 < T) (old : List Byte)
    (c : Csr W) (h : FitsCsr P.lb P.ob P.wk.wgt P.cw c) (s : List Byte) (hs : (saveCsrO old T P.lb P.ob P.wk.wgt P.cw c).seen s)
    (fn : List Byte) (h1 : ¬ str ".mtx" <:+ fn) (h2 : ¬ str ".graph" <:+ fn) (pad : Nat) (hpad : 0 < pad) :
    s = old ∨ s = [] ∨ (readCsr P ⟨s, pad⟩ fn 0 .auto).Throws ∨ (readCsr P ⟨s, pad⟩ fn 0 .auto).All (fun r => Smaller r.1 c) ∨
    (readCsr P ⟨s, pad⟩ fn 0 .auto).All (fun r => NoEdges r.1) := by
  obtain ⟨n, hn⟩ : ∃ n, n = csrSaveSize P.lb P.ob P.wk.wgt P.cw c := ⟨_, rfl⟩
  have hlen := csrBytes_length P.cw h
  have l11 : csrMagic.length = 11 := by decide
  have hsz : 13 + 3 * P.lb + P.ob < csrSaveSize P.lb P.ob P.wk.wgt P.cw c := by
    unfold csrSaveSize
    have : 0 < P.ob * (c.n + 1) := Nat.mul_pos hob.1 (by omega)
    rw [l11, succL_eq h.room]
    omega
  rcases saveCsrO_mid hT P.cw h hn hs with h' | h' | ⟨j, hj, h'⟩ | h'
  · exact .inl h'
  · exact .inr (.inl h')
  · right; right
    have hd : s.drop 0 = (csrBytes P.lb P.ob P.wk.wgt P.cw c).take j ++ (blank n).drop (0 + j) := by
      rw [List.drop_zero, h', cutFile]; simp
    rcases half_cut P hT' hlb.1 hob.1 h fn h1 h2 (μ := ⟨s, pad⟩) hpad (n := n) (q := 0) hj (by omega) hd with hc | hc | hc
    · exact .inl hc
    · exact .inr (.inl (hc.mono fun r hr => hr.1))
    · exact .inr (.inr (hc.mono fun r hr => hr.1))
  · right; right
    rcases half_head P hT' hlb.2 hob h fn (μ := ⟨s, pad⟩) (q := 0) (by show _ ≤ (s.drop 0).length; rw [List.drop_zero, h'.len]; omega)
      (by show _ <+: s.drop 0; rw [List.drop_zero]; exact h'.head) with hc | hc
    · exact .inl hc
    · exact .inr (.inl (hc.mono fun r hr => hr.1))

example := C89_csr_load_auto binParams (by decide) (by decide) (by decide) 3 (by decide) (str "old") binCsr binCsr_fits

/-- **C89 (Tensor, type found out automatically)** -/
theorem C89_tensor_load_auto (P : Params W) (hT' : 0 < P.T) (hlb : 0 < P.lb) (T : Nat) (hT : 0 < T) (old : List Byte) (t : Tensor W)
    (h : FitsTensor P.lb P.ob P.wk.wgt P.cw t) (ho : 0 < t.order) (hm : 0 < t.m) (s : List Byte) (hs : (saveTensorO old T P.lb P.ob P.wk.wgt P.cw t).seen s)
    (fn : List Byte) (h1 : ¬ str ".mtx" <:+ fn) (h2 : ¬ str ".graph" <:+ fn) (pad : Nat) (hpad : 0 < pad) :
    s = old ∨ s = [] ∨ (readTensor P ⟨s, pad⟩ fn 0 .auto).Throws ∨
    (readTensor P ⟨s, pad⟩ fn 0 .auto).All (fun r => r.m ≤ t.m ∧ r.order ≤ t.order ∧ r.c.length = r.order * r.m) ∨
    (readTensor P ⟨s, pad⟩ fn 0 .auto).All (fun r => r.m = 0 ∧ r.c = [] ∧ r.w = []) := by
  obtain ⟨n, hn⟩ : ∃ n, n = tensorSaveSize P.lb P.ob P.wk.wgt P.cw t := ⟨_, rfl⟩
  have l13 : tensorMagic.length = 13 := by decide
  have hsz : 15 ≤ n := by
    rw [hn]; unfold tensorSaveSize; omega
  have full : tensorMagic <+: s → 13 < s.length → s = old ∨ s = [] ∨ (readTensor P ⟨s, pad⟩ fn 0 .auto).Throws ∨
      (readTensor P ⟨s, pad⟩ fn 0 .auto).All (fun r => r.m ≤ t.m ∧ r.order ≤ t.order ∧ r.c.length = r.order * r.m) ∨
      (readTensor P ⟨s, pad⟩ fn 0 .auto).All (fun r => r.m = 0 ∧ r.c = [] ∧ r.w = []) := by
    intro hp hl
    have hty : usedType ⟨s, pad⟩ fn 0 .auto = .ok .tensorBin := by
      unfold usedType
      rw [if_pos rfl]
      exact C45_magic _ fn 0 (str "PIGO-Tensor-2", .tensorBin) (by simp [magics]) ⟨by rw [List.drop_zero]; exact hp, by rw [show (str "PIGO-Tensor-2").length = 13 by decide]; show _ < s.length; omega⟩
    have he : readTensor P ⟨s, pad⟩ fn 0 .auto = readBinTensor P.T P.lb P.ob P.wk.wgt P.cw ⟨s, pad⟩ 0 := by
      unfold readTensor
      rw [R.lift_bind hty, if_neg (by simp), if_pos rfl]
    rcases C89_tensor_load T P.T P.lb P.ob hT hT' hlb P.wk.wgt P.cw old t h ho hm s hs pad with h | h | h | h
    · exact .inl h
    · exact .inr (.inl h)
    · exact .inr (.inr (.inl (he ▸ h)))
    · exact .inr (.inr (.inr (.inl (he ▸ h))))
  rcases saveTensorO_magic hT P.cw h hn hs with h | h | ⟨j, hj, h⟩ | ⟨h, hl⟩
  · exact .inl h
  · exact .inr (.inl h)
  · have hsl : s.length = n := by
      rw [h, cutFile, List.length_append, List.length_take, List.length_drop, blank_length (by omega)]; omega
    by_cases hj' : j = tensorMagic.length
    · refine full ?_ (by omega)
      rw [h, cutFile, hj', List.take_length]
      exact List.prefix_append _ _
    · right; right
      rw [h]
      rcases guess_cut (q := (tensorMagic, .tensorBin)) (by simp [magics, tensorMagic, str]) (n := n) (j := j) (by show j < tensorMagic.length; omega)
        (by show tensorMagic.length < n; omega) fn pad with hg | ⟨hg, hnd⟩
      · left
        unfold readTensor
        exact R.Throws.bind_left (R.Throws.lift (by unfold usedType; rw [if_pos rfl]; exact hg))
      · right; right
        generalize hs' : cutFile n tensorMagic j = s' at hg hnd ⊢
        have hty : usedType ⟨s', pad⟩ fn 0 .auto = .ok .edgeList := by
          unfold usedType
          rw [if_pos rfl, C45_by_name _ _ _ hg, if_neg h1, if_neg h2]
        rw [readTensor_text hty]
        have : fileReader ⟨s', pad⟩ = rd s'.length s' := by simp [fileReader, rd]
        rw [this]
        exact readTensorEl_no_digits (μ := ⟨s', pad⟩) (e := s'.length) (s := s') ⟨by simp, Nat.le_refl _⟩
          (by show s'.length < s'.length + pad; omega) hnd _ _ _ hT'
  · exact full h (by omega)

example := C89_tensor_load_auto { T := 5, lb := 4, ob := 8, wk := wUint 64, cw := codecNat 8 (by decide), stor := .pointer } (by decide) (by decide) 3 (by decide)
  (str "old") binTensor binTensor_fits (by decide) (by decide)

end Pigo
