import Verif.Lemmas.SignedText
import Verif.Props.Examples

/-!
# Signed label and ordinal types

C98.  `sReadCoo P cfg μ fn p ft` is `COO(fn, ft)` and `sReadCsr` is `CSR(fn, ft)` with signed label and ordinal types of `P.lb`
and `P.ob` bytes, for the text formats; `SLoadEdgeList` and `SLoadMm` are the two text constructors.  A signed overflow is the
outcome `.error .overflow`.
-/

namespace Pigo

variable {W : Type}

/-- An execution of the constructor `COO(fn, EDGE_LIST)` with signed types (impl/coo.impl.hpp 18–29, 43–45). -/
def SLoadEdgeList (μ : Mapping) (lw ow : Nat) (cfg : Cfg) (wk : WKind W) (T : Nat) (out : M (Coo W)) : Prop :=
  SReadEl μ lw ow cfg wk T (fileReader μ) out

/-- An execution of the constructor `COO(fn, MATRIX_MARKET)` with signed types (impl/coo.impl.hpp 18–29, 39–41). -/
def SLoadMm (μ : Mapping) (lw ow : Nat) (cfg : Cfg) (wk : WKind W) (T : Nat) (out : M (Coo W)) : Prop :=
  SReadMm μ lw ow cfg wk T (fileReader μ) out

/-! ## arbitrary input -/

theorem sReadCooText_sim (P : Params W) (cfg : Cfg) (μ : Mapping) (p : Nat) (ft : FileType) (h : ft = .matrixMarket ∨ ft = .edgeList) :
    RSim (sReadCooText P cfg μ p ft >>= fun c => pure (c, p)) (readCooFmt P cfg μ p ft) := by
  rcases h with rfl | rfl
  · exact RSim.bind (q := (fun o => ReadMm μ (8 * P.lb) (8 * P.ob) cfg P.wk P.T (readerAt μ p) o : R (Coo W)))
      (fun o ho => SReadMm.sim ho) (fun _ => RSim.refl _)
  · exact RSim.bind (q := (fun o => ReadEl μ (8 * P.lb) (8 * P.ob) cfg P.wk P.T (readerAt μ p) o : R (Coo W)))
      (fun o ho => SReadEl.sim ho) (fun _ => RSim.refl _)

/-- C98: with signed types, `COO(fn)` on any text file overflows or does what it does with the unsigned types of the same size. -/
theorem C98_refines_coo (P : Params W) (cfg : Cfg) (μ : Mapping) (fn : List Byte) (p : Nat) (ft t : FileType)
    (ht : usedType μ fn p ft = .ok t) (htext : t = .matrixMarket ∨ t = .edgeList) (o : M (Coo W))
    (h : (sReadCoo P cfg μ fn p ft).Out o) : o = .error .overflow ∨ (readCoo P cfg μ fn p ft).Out o := by
  obtain ⟨o1, rfl, hk⟩ := h
  rw [ht] at hk
  simp only at hk
  rw [if_pos htext] at hk
  have hs : RSim (sReadCooText P cfg μ p t) (readCooFmt P cfg μ p t >>= fun q => pure q.1) := by
    intro o ho
    cases o with
    | error f =>
      rcases sReadCooText_sim P cfg μ p t htext (.error f) ⟨_, ho, rfl⟩ with h | h
      · cases h; exact .inl rfl
      · exact .inr ⟨_, h, rfl⟩
    | ok c =>
      rcases sReadCooText_sim P cfg μ p t htext (.ok (c, p)) ⟨_, ho, rfl⟩ with h | h
      · cases h
      · exact .inr ⟨_, h, rfl⟩
  refine (hs o hk).imp id (fun h => ⟨_, rfl, ?_⟩)
  rw [ht]
  simp only
  rw [if_pos (by rcases htext with h | h <;> simp [h])]
  exact h

/-- C98: the same for `CSR(fn)`. -/
theorem C98_refines_csr (P : Params W) (μ : Mapping) (fn : List Byte) (p : Nat) (ft t : FileType)
    (ht : usedType μ fn p ft = .ok t) (htext : t = .matrixMarket ∨ t = .edgeList) (o : M (Csr W × Nat))
    (h : (sReadCsr P μ fn p ft).Out o) : o = .error .overflow ∨ (readCsr P μ fn p ft).Out o := by
  obtain ⟨o1, rfl, hk⟩ := h
  rw [ht] at hk
  simp only at hk
  rw [if_pos htext] at hk
  have hs : RSim (sReadCooText P {} μ p t >>= fun coo => sConvertCoo (8 * P.lb) (8 * P.ob) P.T P.wk.wgt coo >>= fun c => pure (c, p))
      (readCooFmt P {} μ p t >>= fun q => convertCoo (8 * P.lb) (8 * P.ob) P.T P.wk.wgt q.1 >>= fun c => pure (c, q.2)) := by
    rintro o ⟨o1, ho1, hk⟩
    cases o1 with
    | error f =>
      rcases sReadCooText_sim P {} μ p t htext (.error f) ⟨_, ho1, rfl⟩ with h | h
      · cases h; exact .inl hk
      · exact .inr ⟨_, h, hk⟩
    | ok c =>
      rcases sReadCooText_sim P {} μ p t htext (.ok (c, p)) ⟨_, ho1, rfl⟩ with h | h
      · cases h
      · rcases (RSim.bind (sConvertCoo_sim (8 * P.lb) (8 * P.ob) P.T P.wk.wgt c) (fun _ => RSim.refl _)) o hk with h' | h'
        · exact .inl h'
        · exact .inr ⟨_, h, h'⟩
  refine (hs o hk).imp id (fun h => ⟨_, rfl, ?_⟩)
  rw [ht]
  simp only
  rw [if_pos (by rcases htext with h | h <;> simp [h])]
  exact h

/-! ## well-formed edge lists -/

/-- The labels of the entries, plus one, fit a signed type of `lw` bits. -/
theorem small_lab {lw : Nat} {es : List (Nat × Nat × W)} (h : SmallEntries lw es) : ∀ e ∈ es, e.1 < 2 ^ lw ∧ e.2.1 < 2 ^ lw := by
  intro e he
  have := h e he
  have := pow_pred_le lw
  omega

theorem sLoad_iff {μ : Mapping} (hpad : 0 < μ.pad) {lw ow : Nat} (hlw : 2 ≤ lw) {wk : WKind W}
    {entry : List Byte → Option (Nat × Nat × W)} {wp : Nat × Nat × W → Prop} (hf : Format wk entry wp)
    (hok : Spec.FileOk entry μ.bytes) (hwp : ∀ en ∈ Spec.entries entry μ.bytes, wp en)
    (hlab : SmallEntries lw (Spec.entries entry μ.bytes)) (cfg : Cfg) {T : Nat} (hT : 0 < T)
    (hd : WTrivial wk ∨ ∀ en ∈ Spec.entries entry μ.bytes, storedC cfg en ≠ [])
    (hm : (storedAll cfg (Spec.entries entry μ.bytes)).length < 2 ^ (ow - 1)) (out : M (Coo W)) :
    SLoadEdgeList μ lw ow cfg wk T out ↔ LoadEdgeList μ lw ow cfg wk T out := by
  have he : (Spec.lines μ.bytes).dropLast.filterMap (entOf lw entry) = Spec.entries entry μ.bytes := by
    rw [filterMap_entOf, entries_dropLast hok.last, map_modL_id (small_lab hlab)]
  unfold SLoadEdgeList LoadEdgeList
  rw [fileReader_rd]
  refine sReadEl_iff cfg hT hlw (elState_file hpad hok.last)
    (fun l hl => entOk_lines (hf.ok lw) hok.line hwp l (List.dropLast_subset _ hl)) ?_ (by rw [he]; exact hlab)
    (by rw [he]; exact hd) (by rw [he]; exact hm) out
  refine smallLines_of hf (fun l hl => lines_noNl _ l (List.dropLast_subset _ hl)) ?_
  intro l hl en hi hen
  have hmem : en ∈ Spec.entries entry μ.bytes := by
    unfold Spec.entries
    exact List.mem_filterMap.mpr ⟨l, List.dropLast_subset _ hl, by rw [if_neg hi, hen]⟩
  exact ⟨hwp en hmem, hlab en hmem⟩

/-- C98: loading a well-formed edge list with signed types, any weight type and flags: if the labels, plus one, and the number of
stored entries fit the signed types then there is no overflow, in any execution, and the COO is the one of C08–C17. -/
theorem C98_edge_list (μ : Mapping) (hpad : 0 < μ.pad) (lw ow : Nat) (hlw : 2 ≤ lw) {wk : WKind W}
    {entry : List Byte → Option (Nat × Nat × W)} {wp : Nat × Nat × W → Prop} (hf : Format wk entry wp)
    (hok : Spec.FileOk entry μ.bytes) (hwp : ∀ en ∈ Spec.entries entry μ.bytes, wp en)
    (hlab : ∀ e ∈ Spec.entries entry μ.bytes, e.1 + 1 < 2 ^ (lw - 1) ∧ e.2.1 + 1 < 2 ^ (lw - 1)) (cfg : Cfg) (T : Nat) (hT : 0 < T)
    (hd : WTrivial wk ∨ ∀ en ∈ Spec.entries entry μ.bytes, Spec.stored cfg.sym cfg.ut cfg.sl en ≠ [])
    (hm : (storedAll cfg (Spec.entries entry μ.bytes)).length < 2 ^ (ow - 1)) :
    (∀ out, SLoadEdgeList μ lw ow cfg wk T out → ∃ c, out = .ok c ∧ Holds c wk.wgt (storedAll cfg (Spec.entries entry μ.bytes)) ∧
      c.nrows = Spec.maxOf ((prims cfg (Spec.entries entry μ.bytes)).map (·.1)) + 1 ∧
      c.ncols = Spec.maxOf ((prims cfg (Spec.entries entry μ.bytes)).map (·.2.1)) + 1 ∧ c.n = max c.nrows c.ncols) ∧
    (Nonempty W → ∃ out, SLoadEdgeList μ lw ow cfg wk T out) := by
  have hiff := sLoad_iff hpad hlw hf hok hwp hlab cfg hT hd hm
  refine ⟨fun out hout => ?_, fun ⟨w⟩ => ?_⟩
  · have := load_any hpad (hf.ok lw) hok hwp (small_lab hlab) cfg hT hd (Nat.lt_of_lt_of_le hm (pow_pred_le ow)) ((hiff out).mp hout)
    have hb := pow_pred_le lw
    obtain ⟨d1, d2⟩ := cooOf_dims (lw := lw) (cfg := cfg) (wgt := wk.wgt) (by omega)
      (fun e he => ⟨Nat.lt_of_lt_of_le (hlab e he).1 hb, Nat.lt_of_lt_of_le (hlab e he).2 hb⟩)
    exact ⟨_, this, cooOf_holds _ _ _ _, d1, d2, rfl⟩
  · obtain ⟨out, h⟩ := load_exists μ lw ow cfg wk T ⟨fun _ => 0, fun _ => 0, fun _ => w⟩
    exact ⟨out, (hiff out).mpr h⟩

/-- C98: a label that is too large, plus one, for the signed type, though the type may hold the label itself: every execution of
`COO(fn, EDGE_LIST)` overflows (undefined behaviour), for every weight type. -/
theorem C98_overflow_violated (μ : Mapping) (hpad : 0 < μ.pad) (lw ow : Nat) {wk : WKind W}
    {entry : List Byte → Option (Nat × Nat × W)} {wp : Nat × Nat × W → Prop} (hf : Format wk entry wp)
    (hok : Spec.FileOk entry μ.bytes) (hwp : ∀ en ∈ Spec.entries entry μ.bytes, wp en) (T : Nat) (hT : 0 < T)
    (hm : (Spec.entries entry μ.bytes).length < 2 ^ ow)
    (hbig : ∃ e ∈ Spec.entries entry μ.bytes, 2 ^ (lw - 1) ≤ e.1 + 1 ∨ 2 ^ (lw - 1) ≤ e.2.1 + 1) :
    (∀ out, SLoadEdgeList μ lw ow {} wk T out → out = .error .overflow) ∧
    (Nonempty W → ∃ out, SLoadEdgeList μ lw ow {} wk T out) := by
  have st := elState_file hpad hok.last
  have hent := fun l hl => entOk_lines (hf.ok lw) hok.line hwp l (List.dropLast_subset (l := Spec.lines μ.bytes) hl)
  have hd : ∀ en ∈ (Spec.entries entry μ.bytes).map (modL lw), storedC ({} : Cfg) en ≠ [] := by
    intro en _; obtain ⟨x, y, w⟩ := en; simp [storedC, Spec.stored]
  have hmm : total ({} : Cfg) ((Spec.entries entry μ.bytes).map (modL lw)) < 2 ^ ow := by
    have : total ({} : Cfg) ((Spec.entries entry μ.bytes).map (modL lw)) = ((Spec.entries entry μ.bytes).map (modL lw)).length :=
      congrArg List.length (storedAll_plain _)
    rw [this, List.length_map]; exact hm
  refine ⟨?_, ?_⟩
  · intro out hout
    have hout0 := hout
    rcases SReadEl.sim hout with h | h
    · exact h
    · exfalso
      have hok' := readEl_file hpad (hf.ok lw) hok hwp {} hT (.inr hd) hmm h
      unfold SLoadEdgeList SReadEl at hout
      rw [hok'] at hout
      cases hp : sReadElPlan μ lw ow {} wk T (fileReader μ) with
      | error f => rw [hp] at hout; cases hout
      | ok p =>
        rw [hp] at hout
        obtain ⟨j, sched, _, hx⟩ := hout
        have hp' := hp
        rw [fileReader_rd] at hp'
        have hsm := sReadElPlan_small hT st (fun l hl => hent l hl) hp'
        have hent' : ∀ en ∈ Spec.entries entry μ.bytes, en.1 < 2 ^ (lw - 1) ∧ en.2.1 < 2 ^ (lw - 1) := by
          intro en hen
          rw [← entries_dropLast hok.last] at hen
          obtain ⟨l, hl, hle⟩ := List.mem_filterMap.mp hen
          by_cases hi : Spec.ints l = []
          · rw [if_pos hi] at hle; cases hle
          · rw [if_neg hi] at hle
            have hmem : en ∈ Spec.entries entry μ.bytes := by
              unfold Spec.entries
              exact List.mem_filterMap.mpr ⟨l, List.dropLast_subset _ hl, by rw [if_neg hi, hle]⟩
            have hs := hsm l hl (modL lw en) (by unfold entOf; rw [if_neg hi, hle]; rfl)
            have hlaw := fun k => hf.ok k l (lines_noNl _ l (List.dropLast_subset _ hl)) en hle (hwp en hmem)
            have hx : en.1 = _ := eq_of_mod_pow (fun k => (hlaw k).xv)
            have hy : en.2.1 = _ := eq_of_mod_pow (fun k => (hlaw k).yv)
            rw [hx, hy]; exact hs
        have hb := pow_pred_le lw
        have hid : (Spec.entries entry μ.bytes).map (modL lw) = Spec.entries entry μ.bytes :=
          map_modL_id (fun e he => by have := hent' e he; omega)
        -- the plan is the one for unsigned types
        rcases sReadElPlan_sim μ lw ow {} wk T (fileReader μ) with hs | hs
        · rw [hp] at hs; cases hs
        · rw [hp] at hs
          obtain ⟨gs, _, _, hplan⟩ := readElPlan_eq (ow := ow) {} hT st (fun l hl => hent l hl)
            (.inr (by rw [filterMap_entOf, entries_dropLast hok.last]; exact hd))
          rw [← fileReader_rd, ← hs, filterMap_entOf, entries_dropLast hok.last, hid] at hplan
          injection hplan with hplan
          have hpr : prims ({} : Cfg) (Spec.entries entry μ.bytes) = Spec.entries entry μ.bytes := by
            rw [prims_eq_stored (.inl rfl), storedAll_plain]
          unfold sExecPlan at hx
          cases hr : runActs stepAct sched (allocCoo wk.wgt j p.m) with
          | error f => rw [hr] at hx; cases hx
          | ok mem =>
            rw [hr, ok_bind] at hx
            cases h1 : wrapS lw (p.mr + 1) with
            | error f => rw [h1] at hx; cases hx
            | ok nr =>
              rw [h1, ok_bind] at hx
              cases h2 : wrapS lw (p.mc + 1) with
              | error f => rw [h2] at hx; cases hx
              | ok nc =>
                have k1 := (wrapS_ok h1).2
                have k2 := (wrapS_ok h2).2
                rw [hplan, hpr] at k1 k2
                obtain ⟨e, he, hbig⟩ := hbig
                have m1 := le_maxOf (List.mem_map_of_mem (f := fun e : Nat × Nat × W => e.1) he)
                have m2 := le_maxOf (List.mem_map_of_mem (f := fun e : Nat × Nat × W => e.2.1) he)
                simp only at k1 k2 m1 m2
                omega
  · rintro ⟨w⟩
    unfold SLoadEdgeList SReadEl
    cases sReadElPlan μ lw ow {} wk T (fileReader μ) with
    | error f => exact ⟨_, rfl⟩
    | ok p =>
      exact ⟨_, ⟨fun _ => 0, fun _ => 0, fun _ => w⟩, _, interleave_flatten p.threads, rfl⟩

/-! ## Matrix Market -/

/-- The size line of a Matrix Market file, with signed types. -/
theorem sReadMmHeader_eq {μ : Mapping} (hpad : 0 < μ.pad) {R C N : Nat} {body : List (List Byte)}
    (h : Spec.MmFile μ.bytes R C N body) {lw ow : Nat} (hR : R + 1 < 2 ^ (lw - 1)) (hC : C + 1 < 2 ^ (lw - 1)) (hN : N < 2 ^ (ow - 1)) :
    sReadMmHeader μ lw ow (fileReader μ) = readMmHeader μ lw ow (fileReader μ) := by
  obtain ⟨size, t, hns, hsize, hr, hnb, hat, hfst, v0⟩ := mmHeader_at hpad h
  generalize text body.dropLast ++ body.getLast h.body_ne = rest at *
  have step : ∀ (w : Nat) {l : List Byte} {x : Nat} {t : List Nat}, nl ∉ l → Spec.ints l = x :: t → x < 2 ^ (w - 1) →
      View μ μ.bytes.length (firstIntL l ++ nl :: rest) →
      readInt μ (wrapS w) (rd μ.bytes.length (firstIntL l ++ nl :: rest)) =
        readInt μ (wrapU w) (rd μ.bytes.length (firstIntL l ++ nl :: rest)) := by
    intro w l x t hn hi hx v
    obtain ⟨h1, h2, _⟩ := ints_cons l hn x t hi
    exact readInt_line_signed w false l _ rest rfl h1 v (by rw [← h2]; exact hx)
  have e1 := step lw hns hsize (by omega) v0
  obtain ⟨l1, n1, i1, v1, r1, m1⟩ := readInt_step hr lw hns hsize v0
  obtain ⟨m1, v1'⟩ := m1 (by simp)
  have e2 := step lw n1 i1 (by omega) v1'
  obtain ⟨l2, n2, i2, v2, r2, m2⟩ := readInt_step hr lw n1 i1 v1'
  obtain ⟨m2, v2'⟩ := m2 (by simp)
  have e3 := step ow n2 i2 hN v2'
  have hb := pow_pred_le lw
  unfold sReadMmHeader readMmHeader
  rw [hat, ok_bind, ok_bind]
  simp only [Bool.not_true, Bool.false_eq_true, if_false]
  rw [hfst, ok_bind, ok_bind, e1, r1, ok_bind, ok_bind]
  simp only []
  rw [Nat.mod_eq_of_lt (by omega : R < 2 ^ lw), wrapS_lt hR, ok_bind, m1, ok_bind, ok_bind, e2, r2, ok_bind, ok_bind]
  simp only []
  rw [Nat.mod_eq_of_lt (by omega : C < 2 ^ lw), wrapS_lt hC, ok_bind, m2, ok_bind, ok_bind, e3,
    Nat.mod_eq_of_lt (by omega : R + 1 < 2 ^ lw), Nat.mod_eq_of_lt (by omega : C + 1 < 2 ^ lw)]

/-- C98: loading a well-formed Matrix Market file with signed types, any weight type and flags: if the declared sizes, the labels,
plus one, and the number of stored entries (twice it under `symmetric`) fit the signed types, the executions are exactly the ones
with the unsigned types, described by C21–C23. -/
theorem C98_matrix_market (μ : Mapping) (hpad : 0 < μ.pad) (lw ow : Nat) (hlw : 2 ≤ lw) {R C N : Nat} {body : List (List Byte)}
    (h : Spec.MmFile μ.bytes R C N body) {wk : WKind W}
    {entry : List Byte → Option (Nat × Nat × W)} {wp : Nat × Nat × W → Prop} (hf : Format wk entry wp)
    (hok : Spec.BodyOk entry body) (hwp : ∀ en ∈ Spec.entriesOf entry body, wp en)
    (hR : R + 1 < 2 ^ (lw - 1)) (hC : C + 1 < 2 ^ (lw - 1)) (hN : N < 2 ^ (ow - 1))
    (hlab : ∀ e ∈ Spec.entriesOf entry body, e.1 + 1 < 2 ^ (lw - 1) ∧ e.2.1 + 1 < 2 ^ (lw - 1)) (cfg : Cfg) (T : Nat) (hT : 0 < T)
    (hd : WTrivial wk ∨ ∀ en ∈ Spec.entriesOf entry body, Spec.stored cfg.sym cfg.ut cfg.sl en ≠ [])
    (hm : (storedAll cfg (Spec.entriesOf entry body)).length < 2 ^ (ow - 1))
    (hm2 : cfg.sym = true → 2 * (storedAll cfg (Spec.entriesOf entry body)).length < 2 ^ (ow - 1)) (out : M (Coo W)) :
    SLoadMm μ lw ow cfg wk T out ↔ LoadMm μ lw ow cfg wk T out := by
  have hse : SmallEntries lw (Spec.entriesOf entry body) := hlab
  obtain ⟨hh, hv, hn⟩ := readMmHeader_eq hpad h lw ow
  have hlast : Spec.ints (body.getLast h.body_ne) = [] := hok.last _ (List.getLast?_eq_some_getLast h.body_ne)
  have hfm : body.dropLast.filterMap (entOf lw entry) = Spec.entriesOf entry body := by
    rw [filterMap_entOf]
    have : body.dropLast.filterMap (fun l => if Spec.ints l = [] then none else entry l) = Spec.entriesOf entry body := by
      unfold Spec.entriesOf
      conv => rhs; rw [← List.dropLast_concat_getLast h.body_ne]
      rw [List.filterMap_append]
      simp [hlast]
    rw [this, map_modL_id (small_lab hse)]
  have st : ElState μ μ.bytes.length body.dropLast (body.getLast h.body_ne) :=
    ⟨hv, by unfold Readable; omega, fun l hl => hn l (List.dropLast_subset _ hl), hn _ (List.getLast_mem _),
      (firstIntL_nil_iff _ (hn _ (List.getLast_mem _))).mpr hlast⟩
  have hmem : ∀ l ∈ body, ∀ en, ¬ Spec.ints l = [] → entry l = some en → en ∈ Spec.entriesOf entry body := by
    intro l hl en hi hen
    unfold Spec.entriesOf
    exact List.mem_filterMap.mpr ⟨l, hl, by rw [if_neg hi, hen]⟩
  have hent : ∀ l ∈ body.dropLast, EntOk lw wk (entOf lw entry) l := by
    intro l hl
    have hlb := List.dropLast_subset _ hl
    refine ⟨hn l hlb, ?_⟩
    unfold entOf
    by_cases hi : Spec.ints l = []
    · rw [if_pos hi]; exact (firstIntL_nil_iff l (hn l hlb)).mpr hi
    · rw [if_neg hi]
      rcases hok.line l hlb with hc | hc
      · exact absurd hc hi
      · obtain ⟨en, hen⟩ := Option.isSome_iff_exists.mp hc
        rw [hen]
        exact hf.ok lw l (hn l hlb) en hen (hwp en (hmem l hlb en hi hen))
  have hsm : SmallLines lw (entOf lw entry) body.dropLast := by
    refine smallLines_of hf (fun l hl => hn l (List.dropLast_subset _ hl)) ?_
    intro l hl en hi hen
    have := hmem l (List.dropLast_subset _ hl) en hi hen
    exact ⟨hwp en this, hlab en this⟩
  have hel := sReadEl_first (ow := ow) cfg hT hlw st hent hsm (by rw [hfm]; exact hse) (by rw [hfm]; exact hd) (by rw [hfm]; exact hm)
  have hck : ∀ o, ReadEl μ lw ow cfg wk T (rd μ.bytes.length (firstIntL (text body.dropLast ++ body.getLast h.body_ne))) o →
      ∀ nr nc, o.bind (sMmCheck ow cfg nr nc (N % 2 ^ ow)) = o.bind (mmCheck ow cfg nr nc (N % 2 ^ ow)) := by
    intro o ho nr nc
    obtain rfl : o = .ok (cooOf lw cfg wk.wgt (Spec.entriesOf entry body)) := by
      have := readEl_first cfg hT st hent (by rw [hfm]; exact hd) (by rw [hfm]; exact Nat.lt_of_lt_of_le hm (pow_pred_le ow)) o ho
      rw [hfm] at this; exact this
    show sMmCheck _ _ _ _ _ _ = mmCheck _ _ _ _ _ _
    have hcm : (cooOf lw cfg wk.wgt (Spec.entriesOf entry body)).m = (storedAll cfg (Spec.entriesOf entry body)).length :=
      (cooOf_holds _ _ _ _).m
    unfold sMmCheck mmCheck
    split
    · split
      · cases hs : cfg.sym
        · cases hl : cfg.sl <;> rfl
        · have := hm2 hs
          rw [if_pos rfl, hcm, wrapS_lt this, twice_lt (Nat.lt_of_lt_of_le this (pow_pred_le ow))]
          rfl
      · rfl
    · rfl
  unfold SLoadMm SReadMm LoadMm ReadMm
  rw [sReadMmHeader_eq hpad h hR hC hN, hh]
  constructor
  · rintro ⟨o, ho, rfl⟩
    have ho' := (hel o).mp ho
    exact ⟨o, ho', hck o ho' _ _⟩
  · rintro ⟨o, ho, rfl⟩
    exact ⟨o, (hel o).mpr ho, (hck o ho _ _).symm⟩

/-! ## CSR and find_edge -/

/-- The COO read from a plain edge file, with signed types. -/
theorem sReadCooText_plain (P : Params Unit) (hwk : P.wk = wNone) (hT : 0 < P.T) (hlb : 0 < P.lb) (cfg : Cfg) (μ : Mapping)
    (hpad : 0 < μ.pad) (fn : List Byte) (h : Spec.PlainEdgeFile μ.bytes fn)
    (hmax : Spec.maxLabel (Spec.edges μ.bytes) + 1 < 2 ^ (8 * P.lb - 1))
    (hm : (storedAll cfg ((Spec.edges μ.bytes).map unw)).length < 2 ^ (8 * P.ob - 1)) :
    (sReadCooText P cfg μ 0 .edgeList).All (fun c => c = cooOf (8 * P.lb) cfg false ((Spec.edges μ.bytes).map unw)) ∧
    (sReadCooText P cfg μ 0 .edgeList).Any := by
  have hlab : ∀ e ∈ Spec.entries Spec.entry0 μ.bytes, e.1 + 1 < 2 ^ (8 * P.lb - 1) ∧ e.2.1 + 1 < 2 ^ (8 * P.lb - 1) := by
    intro e he
    rw [entries_edges] at he
    obtain ⟨a, ha, rfl⟩ := List.mem_map.mp he
    have := le_maxLabel ha
    simp only [unw]; omega
  have hiff := sLoad_iff hpad (lw := 8 * P.lb) (ow := 8 * P.ob) (by omega) Format.none (fileOk_edges h.ok) (fun _ _ => trivial) hlab cfg hT
    (.inl wNone_trivial) (by rw [entries_edges]; exact hm)
  constructor
  · intro out hout
    have hrun : SLoadEdgeList μ (8 * P.lb) (8 * P.ob) cfg wNone P.T out := by rw [← hwk]; exact hout
    refine ⟨_, load_unweighted hpad h.ok ?_ cfg hT (Nat.lt_of_lt_of_le hm (pow_pred_le _)) ((hiff out).mp hrun), rfl⟩
    intro e he
    have := le_maxLabel he
    have := pow_pred_le (8 * P.lb)
    omega
  · obtain ⟨out, ho⟩ := load_exists μ (8 * P.lb) (8 * P.ob) cfg wNone P.T ⟨fun _ => 0, fun _ => 0, fun _ => ()⟩
    refine ⟨out, ?_⟩
    have := (hiff out).mpr ho
    rw [← hwk] at this
    exact this

/-- C98: `CSR(fn)` of an edge list file with signed types, in every execution: no overflow, and the same rows as in C77, if the
largest label, plus two, and the number of edges fit the signed types. -/
theorem C98_csr_file (P : Params Unit) (hwk : P.wk = wNone) (hT : 0 < P.T) (hlb : 0 < P.lb) (μ : Mapping) (hpad : 0 < μ.pad)
    (fn : List Byte) (h : Spec.PlainEdgeFile μ.bytes fn) (hmax : Spec.maxLabel (Spec.edges μ.bytes) + 2 < 2 ^ (8 * P.lb - 1))
    (hm : (Spec.edges μ.bytes).length < 2 ^ (8 * P.ob - 1)) :
    (sReadCsr P μ fn 0 .auto).All (fun r => Spec.ValidCsr r.1 false ∧ r.1.n = Spec.maxLabel (Spec.edges μ.bytes) + 1 ∧
      r.1.m = (Spec.edges μ.bytes).length ∧ ∀ v u, v < r.1.n → (Spec.row r.1 v).count u = (Spec.edges μ.bytes).count (v, u)) ∧
    (sReadCsr P μ fn 0 .auto).Any := by
  obtain ⟨hall, hany⟩ := sReadCooText_plain P hwk hT hlb {} μ hpad fn h (by omega) (by rw [storedAll_plain]; simpa using hm)
  have hn := cooOf_n (lw := 8 * P.lb) (es := Spec.edges μ.bytes) (by omega) (by have := pow_pred_le (8 * P.lb); omega)
  have hh := cooOf_holds (8 * P.lb) {} false ((Spec.edges μ.bytes).map unw)
  rw [storedAll_plain] at hh
  have hw : P.wk.wgt = false := by rw [hwk]; rfl
  have hconv := sConvertCoo_eq (lw := 8 * P.lb) (8 * P.ob) P.T false _ hn (by omega)
  constructor
  · unfold sReadCsr
    refine R.All.bind (P := fun t => t = FileType.edgeList) (R.All.lift (a := FileType.edgeList) (plain_usedType h) rfl) ?_
    rintro t rfl
    rw [if_pos (by decide)]
    refine R.All.bind hall ?_
    rintro _ rfl
    rw [hw, hconv]
    generalize cooOf (8 * P.lb) {} false ((Spec.edges μ.bytes).map unw) = c at hn hh
    have hcm : c.m = (Spec.edges μ.bytes).length := by rw [hh.m, List.length_map]
    refine R.All.bind (convertCoo_all (lw := 8 * P.lb) (ow := 8 * P.ob - 1) hT hh ?_ (by rw [hcm]; exact hm)
      (by rw [hn]; exact .inr (by have := pow_pred_le (8 * P.lb); omega))) (fun r hr => R.All.pure ?_)
    · intro e he
      obtain ⟨a, ha, rfl⟩ := List.mem_map.mp he
      have := le_maxLabel ha
      rw [hn]; simp only [unw]; omega
    · obtain ⟨h1, h2, h3, es', h4, _, h5⟩ := hr
      have hrn : r.n = c.n := by rw [h5.n]; simp [groupRows]
      refine ⟨h5.valid, by rw [hrn, hn], by rw [h1, hcm], ?_⟩
      intro v u hv
      rw [fromEntries_count (n := c.n) (c := c) ⟨hrn, h1, h2, h3, es', h4, h5⟩ (by rw [← hrn]; exact hv), fun_eq_countP]
  · unfold sReadCsr
    refine R.Any.bindAll (R.Any.lift _) (R.All.lift (a := FileType.edgeList) (Q := fun t => t = FileType.edgeList) (plain_usedType h) rfl) ?_
    rintro _ rfl
    rw [if_pos (by decide)]
    refine R.Any.bindAll hany hall ?_
    rintro _ rfl
    rw [hw, hconv]
    exact R.Any.bind (convertCoo_any hT _ _) (fun c => R.Any.pure _)

/-- Every outcome of `find_edge` with its signed types is one of the program with unsigned types. -/
theorem sFindEdge_sub (P : Params Unit) (hwk : P.wk = wNone) (hT : 0 < P.T) (hlb : 0 < P.lb) (μ : Mapping) (hpad : 0 < μ.pad)
    (fn : List Byte) (h : Spec.PlainEdgeFile μ.bytes fn) (hmax : Spec.maxLabel (Spec.edges μ.bytes) + 2 < 2 ^ (8 * P.lb - 1))
    (hm : (Spec.edges μ.bytes).length < 2 ^ (8 * P.ob - 1)) (src dst : Int) (o : M Nat) (ho : (sFindEdge P μ fn src dst).Out o) :
    (findEdge P μ fn src dst).Out o := by
  obtain ⟨hall, _⟩ := C98_csr_file P hwk hT hlb μ hpad fn h hmax hm
  obtain ⟨o1, ho1, hk⟩ := ho
  obtain ⟨⟨g, p⟩, rfl, hv, hn, hgm, hcount⟩ := hall o1 ho1
  have hr : (readCsr P μ fn 0 .auto).Out (.ok (g, p)) :=
    (C98_refines_csr P μ fn 0 .auto .edgeList (plain_usedType h) (.inr rfl) _ ho1).resolve_left (by simp)
  refine ⟨_, hr, ?_⟩
  dsimp only at hv hn hgm hcount hk ⊢
  by_cases hc : src ≥ g.n ∨ dst ≥ g.n
  · rw [if_pos hc] at hk ⊢; exact hk
  · rw [if_neg hc] at hk ⊢
    obtain ⟨o2, ho2, hk⟩ := hk
    refine ⟨o2, ho2, ?_⟩
    cases o2 with
    | error f => exact hk
    | ok r =>
      dsimp only at hk ⊢
      by_cases hs : src < 0
      · rw [if_pos hs] at hk ⊢; exact hk
      · rw [if_neg hs] at hk ⊢
        have hlt : src.toNat + 1 < 2 ^ (8 * P.lb - 1) := by omega
        have : sNeighborEnd (8 * P.lb) r src.toNat = neighborEnd (8 * P.lb) r src.toNat := by
          unfold sNeighborEnd neighborEnd
          rw [wrapS_lt hlt, ok_bind, plusOne_small hlt]
        rw [this] at hk
        exact hk

/-- `find_edge` with its signed types has an execution. -/
theorem sFindEdge_any (P : Params Unit) (hwk : P.wk = wNone) (hT : 0 < P.T) (hlb : 0 < P.lb) (μ : Mapping) (hpad : 0 < μ.pad)
    (fn : List Byte) (h : Spec.PlainEdgeFile μ.bytes fn) (hmax : Spec.maxLabel (Spec.edges μ.bytes) + 2 < 2 ^ (8 * P.lb - 1))
    (hm : (Spec.edges μ.bytes).length < 2 ^ (8 * P.ob - 1)) (src dst : Int) : (sFindEdge P μ fn src dst).Any := by
  obtain ⟨_, hany⟩ := C98_csr_file P hwk hT hlb μ hpad fn h hmax hm
  unfold sFindEdge
  refine R.Any.bind hany (fun g => ?_)
  dsimp only
  by_cases hc : src ≥ g.1.n ∨ dst ≥ g.1.n
  · rw [if_pos hc]; exact R.Any.lift _
  · rw [if_neg hc]
    refine R.Any.bind (sortCsr_any hT _ false_strictWeak _) (fun r => ?_)
    by_cases hs : src < 0
    · rw [if_pos hs]; exact R.Any.lift _
    · rw [if_neg hs]
      exact R.Any.bind (R.Any.lift _) (fun _ => R.Any.bind (R.Any.lift _) (fun _ => R.Any.bind (R.Any.lift _) (fun _ => R.Any.pure _)))

/-- C98: `find_edge` with the signed types of its source: 0 if the file has the line `src dst` and 2 otherwise, and a vertex above
the largest label is an error; no execution overflows. -/
theorem C98_find_edge (P : Params Unit) (hwk : P.wk = wNone) (hT : 0 < P.T) (hlb : 0 < P.lb) (μ : Mapping) (hpad : 0 < μ.pad)
    (fn : List Byte) (h : Spec.PlainEdgeFile μ.bytes fn) (hmax : Spec.maxLabel (Spec.edges μ.bytes) + 2 < 2 ^ (8 * P.lb - 1))
    (hm : (Spec.edges μ.bytes).length < 2 ^ (8 * P.ob - 1)) :
    (∀ src dst : Nat, src ≤ Spec.maxLabel (Spec.edges μ.bytes) → dst ≤ Spec.maxLabel (Spec.edges μ.bytes) →
      (sFindEdge P μ fn src dst).All (fun code => code = if (src, dst) ∈ Spec.edges μ.bytes then 0 else 2)) ∧
    (∀ src dst : Int, src > Spec.maxLabel (Spec.edges μ.bytes) ∨ dst > Spec.maxLabel (Spec.edges μ.bytes) →
      ∀ o, (sFindEdge P μ fn src dst).Out o → o = .error .error) ∧
    (∀ src dst : Int, (sFindEdge P μ fn src dst).Any) :=
  ⟨fun src dst hs hd o ho => C80_find_edge P hwk hT hlb μ hpad fn h hmax hm src dst hs hd o
      (sFindEdge_sub P hwk hT hlb μ hpad fn h hmax hm src dst o ho),
    fun src dst hs o ho => C80_improper P hwk hT hlb μ hpad fn h hmax hm src dst hs o
      (sFindEdge_sub P hwk hT hlb μ hpad fn h hmax hm src dst o ho),
    fun src dst => sFindEdge_any P hwk hT hlb μ hpad fn h hmax hm src dst⟩

/-- C98: `find_edge` with a negative number, with the signed types of its source: no edge ends in a negative number (2), but a
negative `src` makes every execution read outside of the offsets. -/
theorem C98_find_edge_negative_violated (P : Params Unit) (hwk : P.wk = wNone) (hT : 0 < P.T) (hlb : 0 < P.lb) (μ : Mapping)
    (hpad : 0 < μ.pad) (fn : List Byte) (h : Spec.PlainEdgeFile μ.bytes fn)
    (hmax : Spec.maxLabel (Spec.edges μ.bytes) + 2 < 2 ^ (8 * P.lb - 1)) (hm : (Spec.edges μ.bytes).length < 2 ^ (8 * P.ob - 1)) :
    (∀ (src : Nat) (dst : Int), src ≤ Spec.maxLabel (Spec.edges μ.bytes) → dst < 0 →
      (sFindEdge P μ fn src dst).All (fun code => code = 2)) ∧
    (∀ src dst : Int, src < 0 → dst ≤ Spec.maxLabel (Spec.edges μ.bytes) →
      (∀ o, (sFindEdge P μ fn src dst).Out o → o = .error .oob) ∧ (sFindEdge P μ fn src dst).Any) :=
  ⟨fun src dst hs hd o ho => C80_negative_target P hwk hT hlb μ hpad fn h hmax hm src dst hs hd o
      (sFindEdge_sub P hwk hT hlb μ hpad fn h hmax hm src dst o ho),
    fun src dst hs hd => ⟨fun o ho => (C80_negative_violated P hwk hT hlb μ hpad fn h hmax hm src dst hs hd).1 o
      (sFindEdge_sub P hwk hT hlb μ hpad fn h hmax hm src dst o ho), sFindEdge_any P hwk hT hlb μ hpad fn h hmax hm src dst⟩⟩

/-- C98: a file whose largest label is `2^(lw-1) - 2`: `COO(fn)` holds its edges, but `CSR(fn)` overflows in every execution (the
number of offsets). -/
theorem C98_csr_overflow_violated (P : Params Unit) (hwk : P.wk = wNone) (hT : 0 < P.T) (hlb : 0 < P.lb) (μ : Mapping)
    (hpad : 0 < μ.pad) (fn : List Byte) (h : Spec.PlainEdgeFile μ.bytes fn)
    (hmax : Spec.maxLabel (Spec.edges μ.bytes) + 2 = 2 ^ (8 * P.lb - 1)) (hm : (Spec.edges μ.bytes).length < 2 ^ (8 * P.ob - 1)) :
    (sReadCoo P {} μ fn 0 .auto).All (fun c => Holds c false ((Spec.edges μ.bytes).map unw) ∧
      c.n = Spec.maxLabel (Spec.edges μ.bytes) + 1) ∧
    (∀ o, (sReadCsr P μ fn 0 .auto).Out o → o = .error .overflow) ∧ (sReadCsr P μ fn 0 .auto).Any := by
  obtain ⟨hall, hany⟩ := sReadCooText_plain P hwk hT hlb {} μ hpad fn h (by omega) (by rw [storedAll_plain]; simpa using hm)
  have hn := cooOf_n (lw := 8 * P.lb) (es := Spec.edges μ.bytes) (by omega) (by have := pow_pred_le (8 * P.lb); omega)
  have hh := cooOf_holds (8 * P.lb) {} false ((Spec.edges μ.bytes).map unw)
  rw [storedAll_plain] at hh
  have hconv : ∀ wgt o, (sConvertCoo (8 * P.lb) (8 * P.ob) P.T wgt (cooOf (8 * P.lb) {} false ((Spec.edges μ.bytes).map unw))).Out o ↔
      o = .error .overflow := by
    intro wgt o
    have hw : wrapS (8 * P.lb) ((cooOf (8 * P.lb) {} false ((Spec.edges μ.bytes).map unw)).n + 1) = .error .overflow :=
      if_neg (by rw [hn]; omega)
    simp only [sConvertCoo, hw]
    exact ⟨fun ⟨_, ho, hh⟩ => by cases ho; exact hh, fun hh => ⟨_, rfl, hh⟩⟩
  refine ⟨?_, ?_, ?_⟩
  · unfold sReadCoo
    refine R.All.bind (P := fun t => t = FileType.edgeList) (R.All.lift (a := FileType.edgeList) (plain_usedType h) rfl) ?_
    rintro t rfl
    rw [if_pos (by decide)]
    exact hall.mono (fun c hc => by rw [hc]; exact ⟨hh, hn⟩)
  · rintro o ⟨o1, rfl, hk⟩
    rw [plain_usedType h] at hk
    simp only at hk
    rw [if_pos (by decide)] at hk
    obtain ⟨o2, ho2, hk⟩ := hk
    obtain ⟨c, rfl, rfl⟩ := hall o2 ho2
    obtain ⟨o3, ho3, hk⟩ := hk
    cases (hconv _ _).mp ho3
    exact hk
  · unfold sReadCsr
    refine R.Any.bindAll (R.Any.lift _) (R.All.lift (a := FileType.edgeList) (Q := fun t => t = FileType.edgeList) (plain_usedType h) rfl) ?_
    rintro _ rfl
    rw [if_pos (by decide)]
    refine R.Any.bindAll hany hall ?_
    rintro _ rfl
    exact R.Any.bind ⟨_, (hconv _ _).mpr rfl⟩ (fun c => R.Any.pure _)

/-! ## instances -/

/-- A file with the largest label of a signed type of 32 bits. -/
def maxFile : Mapping := ⟨str "# max\n7 0\n0 2147483647\n", 3⟩

theorem maxFile_ok : Spec.EdgeListOk maxFile.bytes := by
  refine ⟨?_, by decide⟩
  have : ∀ l ∈ Spec.lines maxFile.bytes, Spec.ints l = [] ∨ (Spec.edge l).isSome := by decide
  intro l hl
  rcases this l hl with h | h
  · exact .inl h
  · exact .inr (Option.isSome_iff_exists.mp h)

theorem maxFile_edges : Spec.edges maxFile.bytes = [(7, 0), (0, 2147483647)] := by decide

/-- `maxFile` meets the hypotheses of `C98_overflow_violated` with 32-bit labels, which can hold its labels. -/
example : (∃ out, SLoadEdgeList maxFile 32 32 {} wNone 3 out) ∧
    (∀ out, SLoadEdgeList maxFile 32 32 {} wNone 3 out → out = .error .overflow) ∧
    (∀ e ∈ Spec.edges maxFile.bytes, e.1 < 2 ^ (32 - 1) ∧ e.2 < 2 ^ (32 - 1)) := by
  obtain ⟨h1, h2⟩ := C98_overflow_violated maxFile (by decide) 32 32 Format.none (fileOk_edges maxFile_ok) (fun _ _ => trivial) 3 (by decide)
    (by rw [entries_edges, maxFile_edges]; decide)
    ⟨unw (0, 2147483647), by rw [entries_edges, maxFile_edges]; simp [unw], .inr (by decide)⟩
  exact ⟨h2 ⟨()⟩, h1, by rw [maxFile_edges]; decide⟩

/-- `exFile` meets the hypotheses of `C98_edge_list`, `C98_csr_file` and `C98_find_edge`. -/
example : (∃ out, SLoadEdgeList exFile 32 64 {} wNone 3 out) ∧
    (∀ out, SLoadEdgeList exFile 32 64 {} wNone 3 out → ∃ c, out = .ok c ∧ c.x = [1, 3, 5, 2] ∧ c.y = [2, 4, 5, 1] ∧ c.n = 6) ∧
    (sFindEdge exP exFile (str "g.txt") 3 4).All (fun code => code = 0) ∧
    (sFindEdge exP exFile (str "g.txt") 4 3).All (fun code => code = 2) := by
  have hp : prims ({} : Cfg) ((Spec.edges exFile.bytes).map unw) = (Spec.edges exFile.bytes).map unw := by
    rw [prims_eq_stored (.inl rfl), storedAll_plain]
  obtain ⟨h1, h2⟩ := C98_edge_list exFile (by decide) 32 64 (by decide) Format.none (fileOk_edges exFile_ok) (fun _ _ => trivial)
    (by rw [entries_edges, exFile_edges]; decide) {} 3 (by decide) (.inl wNone_trivial)
    (by rw [storedAll_plain, entries_edges, exFile_edges]; decide)
  rw [storedAll_plain, entries_edges, hp, exFile_edges] at h1
  obtain ⟨h3, _⟩ := C98_find_edge exP rfl (by decide) (by decide) exFile (by decide) _ exFile_plain
    (by rw [exFile_edges]; decide) (by rw [exFile_edges]; decide)
  rw [exFile_edges] at h3
  refine ⟨h2 ⟨()⟩, fun out ho => ?_, h3 3 4 (by decide) (by decide), h3 4 3 (by decide) (by decide)⟩
  obtain ⟨c, rfl, hh, hr, hc, hn⟩ := h1 out ho
  exact ⟨c, rfl, by rw [hh.x]; rfl, by rw [hh.y]; rfl, by rw [hn, hr, hc]; decide⟩

/-- `exMm` meets the hypotheses of `C98_matrix_market`. -/
example : ∃ out c, SLoadMm exMm 32 64 {} (wSint 32) 3 out ∧ out = .ok c ∧ c.x = [1, 4, 2] ∧ c.y = [2, 5, 2] ∧ c.w = [7, -8, 9] ∧
    c.nrows = 5 ∧ c.n = 6 := by
  obtain ⟨out, h⟩ := loadMm_exists (μ := exMm) (lw := 32) (ow := 64) (wk := wSint 32) {} 3 ⟨fun _ => 0, fun _ => 0, fun _ => 0⟩
  have hs := (C98_matrix_market exMm (by decide) 32 64 (by decide) exMm_file (.sint 32) exMm_body (by rw [exMm_entries]; decide)
    (by decide) (by decide) (by decide) (by rw [exMm_entries]; decide) {} 3 (by decide)
    (.inr (fun en _ => by obtain ⟨x, y, w⟩ := en; simp [Spec.stored])) (by rw [storedAll_plain, exMm_entries]; decide) (fun h => by cases h) out).mpr h
  have hc : MmConsistent 32 64 4 5 3 (Spec.entriesOf Spec.entryS exMmBody) := by
    rw [exMm_entries]; exact ⟨by decide, by decide, rfl, by decide, by decide, by decide⟩
  obtain ⟨c, h1, h2, _, h3, _, h4⟩ := C21_matrix_market exMm (by decide) 32 64 3 (by decide) exMm_file (.sint 32)
    exMm_body (by rw [exMm_entries]; decide) hc out h
  rw [exMm_entries] at h2
  exact ⟨out, c, hs, h1, by rw [h2.x]; rfl, by rw [h2.y]; rfl, by rw [h2.w rfl]; rfl, h3, by rw [h4]; rfl⟩

end Pigo
