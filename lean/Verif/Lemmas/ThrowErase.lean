import Verif.Lemmas.Throw

/-!
# Without the blocks, the loaders with allocation are the loaders
-/

namespace Pigo

variable {α β W : Type}

theorem R.congr {p p' : R α} {k k' : α → R β} (hp : p = p') (hk : ∀ a, k a = k' a) : (p >>= k) = (p' >>= k') := by
  rw [hp, funext hk]

theorem erase_brun (p : R α) (k : α → TR β) {k' : α → R β} (h : ∀ a, (k a).erase = k' a) : (TR.run p >>= k).erase = (p >>= k') := by
  rw [erase_bind, erase_run]; exact R.congr rfl h

theorem erase_balloc (bs : List Blk) (k : Unit → TR β) : (TR.alloc bs >>= k).erase = (k ()).erase := by
  rw [erase_bind, erase_alloc, R.pure_bind']

theorem readEl_eq (μ : Mapping) (lw ow : Nat) (cfg : Cfg) (wk : WKind W) (T : Nat) (r : Reader) :
    ((fun o => ReadEl μ lw ow cfg wk T r o : R (Coo W))) =
      (R.lift (mapE (elRegion μ r T) (List.range T)) >>= fun regions =>
        R.lift (mapE (elCount μ lw cfg wk) regions) >>= fun counts =>
        readElPass2 μ lw ow cfg wk T regions (prefixSums 0 counts)) := by
  funext out
  refine propext ⟨fun h => ⟨_, rfl, ?_⟩, ?_⟩
  · unfold ReadEl readElPlan at h
    cases h1 : mapE (elRegion μ r T) (List.range T) with
    | error f => rw [h1] at h; exact h
    | ok regions =>
      refine ⟨_, rfl, ?_⟩
      rw [h1] at h
      simp only [ok_bind] at h
      cases h2 : mapE (elCount μ lw cfg wk) regions with
      | error f => rw [h2] at h; exact h
      | ok counts =>
        rw [h2] at h
        simp only [ok_bind] at h
        dsimp only
        unfold readElPass2
        cases h3 : mapE (elSet μ lw cfg wk (prefixSums 0 counts)) ((List.range T).zip regions) with
        | error f => rw [h3] at h; exact h
        | ok sts => rw [h3] at h; exact h
  · rintro ⟨o, rfl, h⟩
    unfold ReadEl readElPlan
    cases h1 : mapE (elRegion μ r T) (List.range T) with
    | error f => rw [h1] at h; exact h
    | ok regions =>
      rw [h1] at h
      obtain ⟨o, rfl, h⟩ := h
      simp only [ok_bind]
      cases h2 : mapE (elCount μ lw cfg wk) regions with
      | error f => rw [h2] at h; exact h
      | ok counts =>
        rw [h2] at h
        simp only [ok_bind]
        dsimp only at h
        unfold readElPass2 at h
        cases h3 : mapE (elSet μ lw cfg wk (prefixSums 0 counts)) ((List.range T).zip regions) with
        | error f => rw [h3] at h; exact h
        | ok sts => rw [h3] at h; exact h

theorem tReadEl_erase (s ws : Storage) (μ : Mapping) (lw ow : Nat) (cfg : Cfg) (wk : WKind W) (T : Nat) (r : Reader) :
    (tReadEl s ws μ lw ow cfg wk T r).erase = fun o => ReadEl μ lw ow cfg wk T r o := by
  rw [readEl_eq]
  unfold tReadEl
  refine erase_brun _ _ fun regions => erase_brun _ _ fun counts => ?_
  rw [erase_balloc, erase_run]

theorem readMm_eq (μ : Mapping) (lw ow : Nat) (cfg : Cfg) (wk : WKind W) (T : Nat) (r : Reader) :
    ((fun o => ReadMm μ lw ow cfg wk T r o : R (Coo W))) =
      (R.lift (readMmHeader μ lw ow r) >>= fun h => (fun o => ReadEl μ lw ow cfg wk T h.2.2.2 o : R (Coo W)) >>= fun c =>
        R.lift (mmCheck ow cfg h.1 h.2.1 h.2.2.1 c)) := by
  funext out
  refine propext ⟨fun h => ⟨_, rfl, ?_⟩, ?_⟩
  · unfold ReadMm at h
    cases h1 : readMmHeader μ lw ow r with
    | error f => rw [h1] at h; exact h
    | ok q =>
      rw [h1] at h
      obtain ⟨o, h2, h3⟩ := h
      refine ⟨o, h2, ?_⟩
      cases o <;> exact h3
  · rintro ⟨_, rfl, h⟩
    unfold ReadMm
    cases h1 : readMmHeader μ lw ow r with
    | error f => rw [h1] at h; exact h
    | ok q =>
      rw [h1] at h
      obtain ⟨o, h2, h3⟩ := h
      refine ⟨o, h2, ?_⟩
      cases o <;> exact h3

theorem tReadMm_erase (s ws : Storage) (μ : Mapping) (lw ow : Nat) (cfg : Cfg) (wk : WKind W) (T : Nat) (r : Reader) :
    (tReadMm s ws μ lw ow cfg wk T r).erase = fun o => ReadMm μ lw ow cfg wk T r o := by
  rw [readMm_eq]
  unfold tReadMm
  refine erase_brun _ _ fun h => ?_
  rw [erase_using, tReadEl_erase]
  exact R.congr rfl fun c => erase_run _

theorem tReadBinCoo_erase (s ws : Storage) (T lb ob : Nat) (wgt : Bool) (cw : Codec W) (μ : Mapping) (p : Nat) :
    (tReadBinCoo s ws T lb ob wgt cw μ p).erase = readBinCoo T lb ob wgt cw μ p := by
  unfold tReadBinCoo readBinCoo
  refine erase_brun _ _ fun p => erase_brun _ _ fun ⟨ls, p⟩ => erase_brun _ _ fun ⟨os, p⟩ => erase_brun _ _ fun _ =>
    erase_brun _ _ fun _ => erase_brun _ _ fun ⟨nrows, p⟩ => erase_brun _ _ fun ⟨ncols, p⟩ => erase_brun _ _ fun ⟨n, p⟩ =>
    erase_brun _ _ fun ⟨m, p⟩ => ?_
  dsimp only
  rw [erase_balloc]
  exact erase_brun _ _ fun ⟨x, p⟩ => erase_brun _ _ fun ⟨y, p⟩ => erase_brun _ _ fun ⟨w, p⟩ => erase_pure _

theorem tReadBinCsr_erase (st : Stor) (ws : Storage) (T lb ob : Nat) (wgt : Bool) (cw : Codec W) (μ : Mapping) (p : Nat) :
    (tReadBinCsr st ws T lb ob wgt cw μ p).erase = readBinCsr T lb ob wgt cw μ p := by
  unfold tReadBinCsr readBinCsr
  refine erase_brun _ _ fun p => erase_brun _ _ fun ⟨ls, p⟩ => erase_brun _ _ fun ⟨os, p⟩ => erase_brun _ _ fun _ =>
    erase_brun _ _ fun _ => erase_brun _ _ fun ⟨nrows, p⟩ => erase_brun _ _ fun ⟨ncols, p⟩ => erase_brun _ _ fun ⟨n, p⟩ =>
    erase_brun _ _ fun ⟨m, p⟩ => ?_
  dsimp only
  rw [erase_balloc]
  exact erase_brun _ _ fun ⟨x, p⟩ => erase_brun _ _ fun ⟨y, p⟩ => erase_brun _ _ fun ⟨w, p⟩ => erase_pure _

theorem tReadGraph_erase (st : Stor) (ws : Storage) (wgt : Bool) (lw ow T : Nat) (μ : Mapping) (r : Reader) :
    (tReadGraph (W := W) st ws wgt lw ow T μ r).erase = readGraph lw ow T μ r := by
  unfold tReadGraph readGraph
  refine erase_brun _ _ fun p => ?_
  dsimp only
  rw [erase_balloc]
  exact erase_brun _ _ fun jo => erase_brun _ _ fun je => erase_brun _ _ fun o => erase_brun _ _ fun ⟨a, b⟩ => erase_run _

theorem tConvertCsr_erase (s ws : Storage) (ow T : Nat) (cfg : Cfg) (wgt : Bool) (c : Csr W) :
    (tConvertCsr s ws ow T cfg wgt c).erase = convertCsr ow T ws cfg wgt c := by
  unfold tConvertCsr convertCsr
  refine erase_brun _ _ fun nr => erase_brun _ _ fun nc => erase_brun _ _ fun m => ?_
  rw [erase_ite]
  split
  · exact erase_run _
  · rw [erase_balloc]
    exact erase_brun _ _ fun j => erase_brun _ _ fun its => erase_brun _ _ fun th => erase_brun _ _ fun mem => erase_pure _

theorem tConvertCoo_erase (st : Stor) (ws : Storage) (lw ow T : Nat) (wgt : Bool) (coo : Coo W) :
    (tConvertCoo st ws lw ow T wgt coo).erase = convertCoo lw ow T wgt coo := by
  unfold tConvertCoo; rw [erase_balloc, erase_run]

theorem tCopyCoo_erase (s ws : Storage) (T : Nat) (wgt : Bool) (c : Coo W) :
    (tCopyCoo s ws T wgt c).erase = copyCoo T wgt c := by
  unfold tCopyCoo; rw [erase_balloc, erase_run]

theorem tReadCooFmt_erase (s : Storage) (P : Params W) (cfg : Cfg) (μ : Mapping) (p : Nat) (ft : FileType) :
    (tReadCooFmt s P cfg μ p ft).erase = readCooFmt P cfg μ p ft := by
  unfold tReadCooFmt readCooFmt
  split
  · rw [erase_bind, tReadMm_erase]; exact R.congr rfl fun c => erase_pure _
  · split
    · rw [erase_bind, tReadEl_erase]; exact R.congr rfl fun c => erase_pure _
    · exact tReadBinCoo_erase ..

theorem tReadCsr_erase (st : Stor) (P : Params W) (μ : Mapping) (fn : List Byte) (p : Nat) (ft : FileType) :
    (tReadCsr st P μ fn p ft).erase = readCsr P μ fn p ft := by
  unfold tReadCsr readCsr
  refine erase_brun _ _ fun ft => ?_
  rw [erase_ite]
  split
  · rw [erase_using, tReadCooFmt_erase]
    refine R.congr rfl fun ⟨c, p⟩ => ?_
    rw [erase_bind, tConvertCoo_erase]
    exact R.congr rfl fun c => erase_pure _
  · split
    · exact tReadBinCsr_erase ..
    · split
      · split
        · exact erase_run _
        · rw [erase_bind, tReadGraph_erase]
          exact R.congr rfl fun c => erase_pure _
      · exact erase_run _

theorem tReadCoo_erase (s : Storage) (P : Params W) (cfg : Cfg) (μ : Mapping) (fn : List Byte) (p : Nat) (ft : FileType) :
    (tReadCoo s P cfg μ fn p ft).erase = readCoo P cfg μ fn p ft := by
  unfold tReadCoo readCoo
  refine erase_brun _ _ fun ft => ?_
  rw [erase_ite]
  split
  · rw [erase_bind, tReadCooFmt_erase]
    exact R.congr rfl fun ⟨c, p⟩ => erase_pure _
  · split
    · rw [erase_using, tReadCsr_erase]
      exact R.congr rfl fun ⟨c, p⟩ => tConvertCsr_erase ..
    · exact erase_run _

theorem tTwoGraphs_erase (s : Storage) (st : Stor) (ws : Storage) (lw ow T : Nat) (wgt : Bool) (coo : Coo W) :
    (tTwoGraphs s st ws lw ow T wgt coo).erase = (copyCoo T wgt coo >>= fun copy =>
      convertCoo lw ow T wgt (transposeCoo copy) >>= fun a => convertCoo lw ow T wgt coo >>= fun b => pure (a, b)) := by
  unfold tTwoGraphs
  rw [erase_bind, erase_using, tCopyCoo_erase, R.bind_assoc']
  refine R.congr rfl fun copy => ?_
  rw [tConvertCoo_erase]
  refine R.congr rfl fun a => ?_
  rw [erase_bind, tConvertCoo_erase]
  exact R.congr rfl fun b => erase_pure _

theorem tReadDiGraph_erase (st : Stor) (P : Params W) (μ : Mapping) (fn : List Byte) (ft : FileType) :
    (tReadDiGraph st P μ fn ft).erase = readDiGraph P μ fn ft := by
  unfold tReadDiGraph readDiGraph
  refine erase_brun _ _ fun ft' => ?_
  rw [erase_ite]
  split
  · unfold readDiGraphBin
    refine erase_brun _ _ fun p => ?_
    rw [erase_bind, tReadCsr_erase]
    refine R.congr rfl fun ⟨a, p⟩ => ?_
    rw [erase_bind, tReadCsr_erase]
    exact R.congr rfl fun ⟨b, p⟩ => erase_pure _
  · rw [erase_using, tReadCoo_erase]
    refine R.congr rfl fun coo => ?_
    unfold fromCoo
    rw [erase_bind, tTwoGraphs_erase, R.bind_assoc']
    refine R.congr rfl fun copy => ?_
    rw [R.bind_assoc']
    refine R.congr rfl fun a => ?_
    rw [R.bind_assoc']
    refine R.congr rfl fun b => ?_
    rw [R.pure_bind']; exact erase_pure _

theorem tReadMatrix_erase (st : Stor) (P : Params W) (μ : Mapping) (fn : List Byte) :
    (tReadMatrix st P μ fn).erase = readMatrix P μ fn := by
  unfold tReadMatrix readMatrix
  rw [erase_using, tReadCoo_erase]
  refine R.congr rfl fun coo => ?_
  unfold matrixFromCoo
  rw [erase_bind, tTwoGraphs_erase, R.bind_assoc']
  refine R.congr rfl fun copy => ?_
  rw [R.bind_assoc']
  refine R.congr rfl fun a => ?_
  rw [R.bind_assoc']
  refine R.congr rfl fun b => ?_
  rw [R.pure_bind']; exact erase_pure _

theorem tReadTensor_erase (s : Storage) (P : Params W) (μ : Mapping) (fn : List Byte) (p : Nat) (ft : FileType) :
    (tReadTensor s P μ fn p ft).erase = readTensor P μ fn p ft := by
  unfold tReadTensor readTensor
  refine erase_brun _ _ fun ft => ?_
  rw [erase_ite]
  split
  · unfold readTensorEl
    refine erase_brun _ _ fun q => ?_
    rw [erase_balloc]
    exact erase_brun _ _ fun jc => erase_brun _ _ fun jw => erase_brun _ _ fun mem => erase_pure _
  · rw [erase_ite]
    split
    · unfold readBinTensor
      refine erase_brun _ _ fun p => erase_brun _ _ fun ⟨ls, p⟩ => erase_brun _ _ fun ⟨os, p⟩ => erase_brun _ _ fun _ =>
        erase_brun _ _ fun _ => erase_brun _ _ fun p => erase_brun _ _ fun ⟨order, p⟩ => erase_brun _ _ fun ⟨m, p⟩ => ?_
      dsimp only
      rw [erase_balloc]
      exact erase_brun _ _ fun ⟨x, p⟩ => erase_brun _ _ fun ⟨w, p⟩ => erase_pure _
    · exact erase_run _

end Pigo
