import Verif.Lemmas.RaceEl
import Verif.Lemmas.RaceBin
import Verif.Lemmas.RaceCsr
import Verif.Lemmas.RaceOps
import Verif.Lemmas.RaceGraph
import Verif.Lemmas.ThrowPost
import Verif.Props.Robust

/-!
# Data races of the constructors that read files

Compositions of the readers and conversions; the number of entries a reader returns always fits the offset type.
-/

namespace Pigo

open Spec

variable {W : Type} {μ : Mapping}

theorem decLE_lt : ∀ bs : List Byte, decLE bs < 256 ^ bs.length
  | [] => by simp [decLE]
  | b :: l => by
    have := decLE_lt l
    have hb : b.toNat < 256 := b.toNat_lt
    rw [decLE, List.length_cons, Nat.pow_succ]
    omega

theorem getBytes_len : ∀ (n p : Nat) {bs : List Byte}, getBytes μ n p = .ok bs → bs.length = n
  | 0, _, bs, h => by cases h; rfl
  | n+1, p, bs, h => by
    rw [getBytes] at h
    obtain ⟨b, _, h⟩ := bind_inv h
    obtain ⟨bs', h1, h⟩ := bind_inv h
    cases h
    rw [List.length_cons, getBytes_len n _ h1]

theorem rdLE_lt {k p : Nat} {q : Nat × Nat} (h : rdLE μ k p = .ok q) : q.1 < 2 ^ (8 * k) := by
  unfold rdLE at h
  obtain ⟨bs, h1, h⟩ := bind_inv h
  cases h
  have := decLE_lt bs
  rw [getBytes_len _ _ h1] at this
  rw [Nat.pow_mul]
  exact this

theorem lift_ok {α : Type} {o : M α} {a : α} (h : R.lift o (.ok a)) : o = .ok a := h.symm

theorem readEl_m_lt {lw ow : Nat} {cfg : Cfg} {wk : WKind W} {T : Nat} {r : Reader} {c : Coo W}
    (h : (dReadEl μ lw ow cfg wk T r).out.Out (.ok c)) : c.m < 2 ^ ow := by
  unfold dReadEl at h
  rw [D.out_touch] at h
  obtain ⟨p, hp, h⟩ := bind_ok h
  obtain ⟨j, _, h⟩ := bind_ok h
  obtain ⟨mem, _, h⟩ := bind_ok h
  cases lift_ok h
  have hp := lift_ok hp
  unfold readElPlan at hp
  obtain ⟨_, _, hp⟩ := bind_inv hp
  obtain ⟨_, _, hp⟩ := bind_inv hp
  obtain ⟨_, _, hp⟩ := bind_inv hp
  cases hp
  exact Nat.mod_lt _ (Nat.two_pow_pos _)

theorem readMm_m_lt {lw ow : Nat} {cfg : Cfg} {wk : WKind W} {T : Nat} {r : Reader} {c : Coo W}
    (h : (dReadMm μ lw ow cfg wk T r).out.Out (.ok c)) : c.m < 2 ^ ow := by
  unfold dReadMm at h
  obtain ⟨q, _, h⟩ := bind_ok h
  obtain ⟨c', hc, h⟩ := bind_ok h
  rw [mmCheck_m (lift_ok h)]
  exact readEl_m_lt hc

theorem readBinCoo_m_lt {T lb ob : Nat} {wgt : Bool} {cw : Codec W} {p : Nat} {q : Coo W × Nat}
    (h : (dReadBinCoo T lb ob wgt cw μ p).out.Out (.ok q)) : q.1.m < 2 ^ (8 * ob) := by
  rw [dReadBinCoo_out] at h
  unfold readBinCoo at h
  obtain ⟨_, _, h⟩ := bind_ok h
  obtain ⟨_, _, h⟩ := bind_ok h
  obtain ⟨_, _, h⟩ := bind_ok h
  obtain ⟨_, _, h⟩ := bind_ok h
  obtain ⟨_, _, h⟩ := bind_ok h
  obtain ⟨_, _, h⟩ := bind_ok h
  obtain ⟨_, _, h⟩ := bind_ok h
  obtain ⟨_, _, h⟩ := bind_ok h
  obtain ⟨m, hm, h⟩ := bind_ok h
  obtain ⟨_, _, h⟩ := bind_ok h
  obtain ⟨_, _, h⟩ := bind_ok h
  obtain ⟨_, _, h⟩ := bind_ok h
  cases lift_ok h
  exact rdLE_lt (lift_ok hm)

theorem readCooFmt_m_lt {P : Params W} {cfg : Cfg} {p : Nat} {ft : FileType} {q : Coo W × Nat}
    (h : (dReadCooFmt P cfg μ p ft).out.Out (.ok q)) : q.1.m < 2 ^ (8 * P.ob) := by
  unfold dReadCooFmt at h
  rw [D.out_ite, D.out_ite] at h
  split at h
  · obtain ⟨c, hc, h⟩ := bind_ok h
    cases lift_ok h
    exact readMm_m_lt hc
  · split at h
    · obtain ⟨c, hc, h⟩ := bind_ok h
      cases lift_ok h
      exact readEl_m_lt hc
    · exact readBinCoo_m_lt h

/-- The file types read as a COO. -/
abbrev IsCooType (ft : FileType) : Prop := ft = .matrixMarket ∨ ft = .edgeList ∨ ft = .cooBin

theorem readCoo_drf {P : Params W} {cfg : Cfg} {fn : List Byte} {p : Nat} {ft ft' : FileType} (hu : usedType μ fn p ft = .ok ft')
    (hc : IsCooType ft') (h : (dReadCooFmt P cfg μ p ft').drf) : (dReadCoo P cfg μ fn p ft).drf := by
  refine drf_lift fun f hf => ?_
  rw [hu] at hf
  cases hf
  rw [if_pos hc]
  exact drf_bind h fun _ _ => drf_pure _

theorem readCoo_m_lt {P : Params W} {cfg : Cfg} {fn : List Byte} {p : Nat} {ft ft' : FileType} (hu : usedType μ fn p ft = .ok ft')
    (hc : IsCooType ft') {c : Coo W} (h : (dReadCoo P cfg μ fn p ft).out.Out (.ok c)) : c.m < 2 ^ (8 * P.ob) := by
  unfold dReadCoo at h
  obtain ⟨f, hf, h⟩ := bind_ok h
  have hf := lift_ok hf
  rw [hu] at hf
  cases hf
  simp only [if_pos hc] at h
  obtain ⟨q, hq, h⟩ := bind_ok h
  cases lift_ok h
  exact readCooFmt_m_lt hq

theorem readCsr_drf {P : Params W} {fn : List Byte} {p : Nat} {ft ft' : FileType} (hT : 0 < P.T) (hu : usedType μ fn p ft = .ok ft')
    (hc : IsCooType ft') (h : (dReadCooFmt P {} μ p ft').drf) : (dReadCsr P μ fn p ft).drf := by
  refine drf_lift fun f hf => ?_
  rw [hu] at hf
  cases hf
  rw [if_pos hc]
  exact drf_bind h fun q hq => drf_bind (convertCoo_drf hT (readCooFmt_m_lt hq)) fun _ _ => drf_pure _

theorem readCsr_bin_drf {P : Params W} {fn : List Byte} {p : Nat} {ft : FileType} (hu : usedType μ fn p ft = .ok .csrBin) :
    (dReadCsr P μ fn p ft).drf := by
  refine drf_lift fun f hf => ?_
  rw [hu] at hf
  cases hf
  rw [if_neg (by decide), if_pos rfl]
  exact readBinCsr_drf ..

theorem readCsr_graph_drf {P : Params W} {fn : List Byte} {p : Nat} {ft : FileType} (hu : usedType μ fn p ft = .ok .graph)
    (h : (dReadGraph (W := W) (8 * P.lb) (8 * P.ob) P.T μ (readerAt μ p)).drf) : (dReadCsr P μ fn p ft).drf := by
  refine drf_lift fun f hf => ?_
  rw [hu] at hf
  cases hf
  rw [if_neg (by decide), if_neg (by decide), if_pos rfl]
  split
  · exact drf_run _
  · exact drf_bind h fun _ _ => drf_pure _

theorem transposeCoo_m (c : Coo W) : (transposeCoo c).m = c.m := rfl

theorem fromCoo_drf {lw ow T : Nat} (hT : 0 < T) {wgt : Bool} {c : Coo W} (hm : c.m < 2 ^ ow) : (dFromCoo lw ow T wgt c).drf := by
  refine drf_bind (copyCoo_drf ..) fun c' hc' => ?_
  rw [dCopyCoo_out] at hc'
  refine drf_bind (convertCoo_drf hT ?_) fun _ _ => drf_bind (convertCoo_drf hT hm) fun _ _ => drf_pure _
  rw [transposeCoo_m, copyCoo_m hc']
  exact hm

theorem matrixFromCoo_drf {lw ow T : Nat} (hT : 0 < T) {wgt : Bool} {c : Coo W} (hm : c.m < 2 ^ ow) : (dMatrixFromCoo lw ow T wgt c).drf := by
  refine drf_bind (copyCoo_drf ..) fun c' hc' => ?_
  rw [dCopyCoo_out] at hc'
  refine drf_bind (convertCoo_drf hT ?_) fun _ _ => drf_bind (convertCoo_drf hT hm) fun _ _ => drf_pure _
  rw [transposeCoo_m, copyCoo_m hc']
  exact hm

theorem readDiGraph_drf {P : Params W} {fn : List Byte} {ft ft' : FileType} (hT : 0 < P.T) (hu : usedType μ fn 0 ft = .ok ft')
    (hc : IsCooType ft') (h : (dReadCooFmt P {} μ 0 ft').drf) : (dReadDiGraph P μ fn ft).drf := by
  refine drf_lift fun f hf => ?_
  rw [hu] at hf
  cases hf
  rw [if_neg (by rintro rfl; exact absurd hc (by decide))]
  exact drf_bind (readCoo_drf hu hc h) fun c hcc => fromCoo_drf hT (readCoo_m_lt hu hc hcc)

theorem readMatrix_drf {P : Params W} {fn : List Byte} {ft' : FileType} (hT : 0 < P.T) (hu : usedType μ fn 0 .auto = .ok ft')
    (hc : IsCooType ft') (h : (dReadCooFmt P {} μ 0 ft').drf) : (dReadMatrix P μ fn).drf :=
  drf_bind (readCoo_drf hu hc h) fun _ hcc => matrixFromCoo_drf hT (readCoo_m_lt hu hc hcc)

/-- Reading an unweighted COO in any of the three formats, from arbitrary bytes. -/
theorem readCooFmt_any_drf (hpad : 0 < μ.pad) {P : Params Unit} (hw : P.wk = wNone) (cfg : Cfg) (ft : FileType) :
    (dReadCooFmt P cfg μ 0 ft).drf := by
  have hr : Readable μ μ.bytes.length := by unfold Readable; omega
  have hrd : readerAt μ 0 = fileReader μ := rfl
  have hfr : fileReader μ = rd μ.bytes.length μ.bytes := by simp [fileReader, rd]
  unfold dReadCooFmt
  rw [hw, hrd]
  split
  · refine drf_bind (readMm_drf fun q hq => ?_) fun _ _ => drf_pure _
    rcases readMmHeader_any (μ := μ) hpad (8 * P.lb) (8 * P.ob) with h | ⟨nr, nc, nnz, s, h, hs⟩
    · rw [h] at hq; cases hq
    · rw [h] at hq; cases hq
      exact readEl_any_drf ((View.full μ).of_suffix hs) hr ..
  · split
    · rw [hfr]
      exact drf_bind (readEl_any_drf (View.full μ) hr ..) fun _ _ => drf_pure _
    · exact readBinCoo_drf ..

theorem readCooFmt_bin_drf (P : Params W) (cfg : Cfg) (p : Nat) : (dReadCooFmt P cfg μ p .cooBin).drf := by
  unfold dReadCooFmt
  rw [if_neg (by decide), if_neg (by decide)]
  exact readBinCoo_drf ..

theorem readTensor_bin_drf {P : Params W} {fn : List Byte} {p : Nat} {ft : FileType} (hu : usedType μ fn p ft = .ok .tensorBin) :
    (dReadTensor P μ fn p ft).drf := by
  refine drf_lift fun f hf => ?_
  rw [hu] at hf
  cases hf
  rw [if_neg (by decide), if_pos rfl]
  exact readBinTensor_drf ..

/-- Any two CSRs in a binary DiGraph file. -/
theorem readDiGraphBin_drf {P : Params W} {fn : List Byte} {p : Nat} (hu : ∀ q ft', usedType μ fn q .auto = .ok ft' → ft' = .csrBin) :
    (dReadDiGraphBin P μ fn p).drf := by
  have key : ∀ q, (dReadCsr P μ fn q .auto).drf := by
    intro q
    refine drf_lift fun f hf => ?_
    cases hu q f hf
    rw [if_neg (by decide), if_pos rfl]
    exact readBinCsr_drf ..
  exact drf_lift fun _ _ => drf_bind (key _) fun _ _ => drf_bind (key _) fun _ _ => drf_pure _

end Pigo
