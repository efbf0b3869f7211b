import Verif.Lemmas.ThrowPost
import Verif.Props.CrossFile
import Verif.Props.Robust
import Verif.Model.Fp

/-!
# Property C84: memory after a load that throws

An exception thrown by a constructor leaves nothing allocated — nobody has an object to call `free()` on.  It holds for
classes whose arrays are vectors or shared pointers, and for every storage when reading edge lists, Matrix Market files
and binary COO, CSR (as a CSR) and tensor files.  It is violated with raw pointers (the default storage) by `.graph` files
with a wrong header, by flags not implemented for CSR files and by DiGraph files with a bad second half.
-/

namespace Pigo

open Spec

variable {α W : Type}

/-! ### The weight readers do not throw -/

theorem wSint_calm (w : Nat) : (wSint w).Calm := by
  intro μ r
  have hd : ∀ n v r, Calm (readDigitsN μ (wrapS w) n v r) := by
    intro n
    induction n with
    | zero => exact fun v r => .ok _
    | succ n ih =>
      intro v r
      unfold readDigitsN
      split
      · refine .bind (OobOnly.get ..).calm fun b => ?_
        split
        · refine .bind ?_ fun v => ih _ _
          unfold wrapS
          split
          · exact .ok _
          · exact .err calm_overflow
        · exact .ok _
      · exact .ok _
  refine .bind ?_ fun r => .bind (.bind (OobOnly.get ..).calm fun _ => .ok _) fun neg => .bind ?_ fun _ => .ok _
  · unfold moveToNextSignedInt
    refine .bind (OobOnly.get ..).calm fun b => .bind (OobOnly.scan ..).calm fun r => .bind (OobOnly.skipIfCom ..).calm fun r => ?_
    exact (OobOnly.firstN ..).calm
  · exact .bind (OobOnly.scan ..).calm fun r => hd _ _ _

theorem wFp_calm {V : Type} (ops : FpOps V) : (wFp ops).Calm := by
  intro μ r
  have hd : ∀ n v k r, Calm (fpDigitsN μ ops n v k r) := by
    intro n
    induction n with
    | zero => exact fun v k r => .ok _
    | succ n ih =>
      intro v k r
      unfold fpDigitsN
      split
      · refine .bind (OobOnly.get ..).calm fun b => ?_
        split
        · exact ih _ _ _
        · exact .ok _
      · exact .ok _
  have hf : ∀ n r, Calm (readFpN μ ops n r) := by
    intro n
    induction n with
    | zero => exact fun r => .err calm_fuel
    | succ n ih =>
      intro r
      unfold readFpN
      refine .bind (OobOnly.scan ..).calm fun r => .bind ?_ fun q => .bind (hd ..) fun q2 => .bind ?_ fun q3 =>
        .bind (OobOnly.get ..).calm fun b => ?_
      · unfold fpSign
        refine .bind (OobOnly.get ..).calm fun b => ?_
        split
        · exact .ok _
        · split <;> exact .ok _
      · unfold fpFrac
        refine .bind (OobOnly.get ..).calm fun b => ?_
        split
        · exact .bind (hd ..) fun _ => .ok _
        · exact .ok _
      · dsimp only
        split
        · exact .bind (ih _) fun _ => .ok _
        · exact .bind (.ok _) fun _ => .ok _
  exact .bind (OobOnly.scan ..).calm fun r => .bind (hf ..) fun _ => .bind (OobOnly.scan ..).calm fun _ => .ok _

/-! ### The traced loaders are the loaders -/

/-- **C84**: the outcomes of the loaders with allocation are those of the loaders. -/
theorem C84_same_outcomes (P : Params W) (s : Storage) (st : Stor) (cfg : Cfg) (μ : Mapping) (fn : List Byte) (ft : FileType) :
    (∀ o, (∃ L, tReadCoo s P cfg μ fn 0 ft o L) ↔ (readCoo P cfg μ fn 0 ft).Out o) ∧
    (∀ o, (∃ L, tReadCsr st P μ fn 0 ft o L) ↔ (readCsr P μ fn 0 ft).Out o) ∧
    (∀ o, (∃ L, tReadDiGraph st P μ fn ft o L) ↔ (readDiGraph P μ fn ft).Out o) ∧
    (∀ o, (∃ L, tReadMatrix st P μ fn o L) ↔ (readMatrix P μ fn).Out o) ∧
    (∀ o, (∃ L, tReadTensor s P μ fn 0 ft o L) ↔ (readTensor P μ fn 0 ft).Out o) :=
  ⟨fun o => iff_of_eq (congrFun (tReadCoo_erase s P cfg μ fn 0 ft) o), fun o => iff_of_eq (congrFun (tReadCsr_erase st P μ fn 0 ft) o),
    fun o => iff_of_eq (congrFun (tReadDiGraph_erase st P μ fn ft) o), fun o => iff_of_eq (congrFun (tReadMatrix_erase st P μ fn) o),
    fun o => iff_of_eq (congrFun (tReadTensor_erase s P μ fn 0 ft) o)⟩

/-! ### What is left -/

theorem Spec.Threw.thrown {o : M α} (h : Threw o) : ∃ f, o = .error f ∧ Thrown f := by
  rcases h with h | h
  · exact ⟨_, h, .inl rfl⟩
  · exact ⟨_, h, .inr rfl⟩

theorem arrays_append (a b : List Blk) : arrays (a ++ b) = arrays a ++ arrays b := by simp [arrays]

theorem arrays_none {L : List Blk} (h : NothingLeft L) : arrays L = [] := by
  rw [arrays, List.filter_eq_nil_iff.mpr]
  · rfl
  · intro b hb; simp [h b hb]

theorem nonEmpty_append (a b : List (Arr × Nat)) : nonEmpty (a ++ b) = nonEmpty a ++ nonEmpty b := by simp [nonEmpty]

theorem arrays_eq (L : List Blk) : arrays L = nonEmpty (L.map (fun b => (b.arr, b.size))) := by
  rw [arrays, nonEmpty, List.filter_map]; rfl

theorem arrays_coo (s ws : Storage) (wgt : Bool) (c : Coo W) : arrays (cooBlocks s ws wgt c.m) = nonEmpty (ofCoo wgt c) := by
  rw [arrays_eq]; cases wgt <;> rfl

theorem arrays_csr (st : Stor) (ws : Storage) (wgt : Bool) (c : Csr W) :
    arrays (csrBlocks st ws wgt c.m c.offsets.length) = nonEmpty (ofCsr wgt c) := by
  rw [arrays_eq]; cases wgt <;> rfl

/-- **C84 (COO)**: a load that throws leaves nothing, if the storage is managed, or the file is neither a `.graph` file nor
a binary CSR loaded with flags that are not implemented for it; a load that succeeds leaves the arrays of the COO. -/
theorem C84_coo (s : Storage) (P : Params W) (hw : P.wk.Calm) (cfg : Cfg) (μ : Mapping) (fn : List Byte) (ft : FileType)
    (o : M (Coo W)) (L : List Blk) (h : tReadCoo s P cfg μ fn 0 ft o L) :
    (Threw o → (s ≠ .pointer ∧ P.stor ≠ .pointer) ∨ (usedType μ fn 0 ft ≠ .ok .graph ∧
      (usedType μ fn 0 ft ≠ .ok .csrBin ∨ (¬ (cfg.ut = true ∧ cfg.sym = false) ∧ cfg.sl = false))) → NothingLeft L) ∧
    (∀ c, o = .ok c → arrays L = nonEmpty (ofCoo P.wk.wgt c)) := by
  obtain ⟨h1, h2⟩ := readCoo_post s hw cfg μ fn 0 ft o L h
  refine ⟨fun ht hc => ?_, fun c hc => ?_⟩
  · obtain ⟨f, hf, ht⟩ := ht.thrown
    refine h1 f hf ht (hc.imp_right fun hc => ⟨hc.1, hc.2.imp_right fun hc => ⟨?_, hc.2⟩⟩)
    have := hc.1
    cases hs : cfg.sym <;> cases hu : cfg.ut <;> simp_all
  · obtain ⟨L0, h0, rfl⟩ := h2 c hc
    rw [arrays_append, arrays_none h0, arrays_coo]; rfl

/-- **C84 (CSR)**: a load that throws leaves nothing, if the storage is managed or the file is not a `.graph` file; a load
that succeeds leaves the arrays of the CSR. -/
theorem C84_csr (st : Stor) (P : Params W) (hw : P.wk.Calm) (μ : Mapping) (fn : List Byte) (ft : FileType)
    (o : M (Csr W × Nat)) (L : List Blk) (h : tReadCsr st P μ fn 0 ft o L) :
    (Threw o → Managed st P.stor ∨ usedType μ fn 0 ft ≠ .ok .graph → NothingLeft L) ∧
    (∀ c q, o = .ok (c, q) → arrays L = nonEmpty (ofCsr P.wk.wgt c)) := by
  obtain ⟨h1, h2⟩ := readCsr_post st hw μ fn 0 ft o L h
  refine ⟨fun ht hc => ?_, fun c q hc => ?_⟩
  · obtain ⟨f, hf, ht⟩ := ht.thrown
    exact h1 f hf ht hc
  · obtain ⟨L0, h0, rfl⟩ := h2 _ hc
    rw [arrays_append, arrays_none h0, arrays_csr]; rfl

/-- The blocks of two CSRs. -/
theorem arrays_two {L0 : List Blk} (h0 : NothingLeft L0) (st : Stor) (ws : Storage) (wgt : Bool) (a b : Csr W) :
    arrays (L0 ++ csrBlocks st ws wgt a.m a.offsets.length ++ csrBlocks st ws wgt b.m b.offsets.length) =
      nonEmpty (ofCsr wgt a ++ ofCsr wgt b) := by
  rw [arrays_append, arrays_append, arrays_none h0, arrays_csr, arrays_csr, nonEmpty_append]; rfl

theorem readDiGraph_post (st : Stor) {P : Params W} (hw : P.wk.Calm) (μ : Mapping) (fn : List Byte) (ft : FileType) :
    (tReadDiGraph st P μ fn ft).Post
      (fun L => Managed st P.stor ∨ (usedType μ fn 0 ft ≠ .ok .graph ∧ usedType μ fn 0 ft ≠ .ok .digraphBin) → NothingLeft L)
      (fun g L => arrays L = nonEmpty (ofCsr P.wk.wgt g.inG ++ ofCsr P.wk.wgt g.outG)) := by
  unfold tReadDiGraph
  refine .brun (fun _ _ _ _ => .nil) fun ft' hft => ?_
  have hft : usedType μ fn 0 ft = .ok ft' := Eq.symm hft
  split
  · next hd =>
    subst hd
    have hE : ∀ L, (Managed st P.stor → NothingLeft L) →
        (Managed st P.stor ∨ (usedType μ fn 0 ft ≠ .ok .graph ∧ usedType μ fn 0 ft ≠ .ok .digraphBin) → NothingLeft L) := by
      intro L h hc
      exact h (hc.resolve_right fun h => h.2 hft)
    refine .brun (fun _ _ _ _ => .nil) fun p _ => ?_
    refine .bind ((readCsr_post st hw μ fn p .auto).mono (fun L h => hE L fun hm => h (.inl hm)) (fun _ _ h => h)) ?_
    rintro a _ ⟨L0, h0, rfl⟩
    refine .bind (E := fun L2 => _) ((readCsr_post st hw μ fn a.2 .auto).mono ?_ (fun _ _ h => h)) ?_
    · intro L2 h2
      refine hE _ fun hm => ?_
      rw [unwind_append, unwind_csr hm, List.append_nil]
      exact h0.unwind.append (h2 (.inl hm))
    · rintro b _ ⟨L1, h1, rfl⟩
      refine .pure ?_
      dsimp only
      rw [List.append_nil, arrays_append, arrays_append, arrays_append, arrays_none h0, arrays_none h1, arrays_csr, arrays_csr,
        nonEmpty_append]
      rfl
  · next hd =>
    refine .using (S1 := fun c L => CooLeft st.l P.stor P.wk.wgt c L) ((readCoo_post st.l hw {} μ fn 0 ft).mono ?_ (fun _ _ h => h)) ?_
    · intro L h hc
      refine h (hc.imp (fun hm => ⟨hm.1, hm.2.2⟩) fun hc => ⟨hc.1, .inr ⟨rfl, rfl⟩⟩)
    · intro coo L1 hL1
      refine .bind (twoGraphs_post st.l st P.stor _ _ P.T P.wk.wgt coo _) ?_
      rintro g _ ⟨L0, h0, rfl⟩
      refine .pure ?_
      dsimp only
      rw [List.append_nil, arrays_append, arrays_none (hL1.temp _), arrays_two h0]
      rfl

/-- **C84 (DiGraph)**: a load that throws leaves nothing, if the storage is managed or the file is neither a `.graph` nor a
DiGraph file; a load that succeeds leaves the arrays of both graphs: the intermediate COO and its copy are released. -/
theorem C84_digraph (st : Stor) (P : Params W) (hw : P.wk.Calm) (μ : Mapping) (fn : List Byte) (ft : FileType)
    (o : M (DiGraph W)) (L : List Blk) (h : tReadDiGraph st P μ fn ft o L) :
    (Threw o → Managed st P.stor ∨ (usedType μ fn 0 ft ≠ .ok .graph ∧ usedType μ fn 0 ft ≠ .ok .digraphBin) → NothingLeft L) ∧
    (∀ g, o = .ok g → arrays L = nonEmpty (ofCsr P.wk.wgt g.inG ++ ofCsr P.wk.wgt g.outG)) := by
  obtain ⟨h1, h2⟩ := readDiGraph_post st hw μ fn ft o L h
  exact ⟨fun ht hc => by obtain ⟨f, hf, ht⟩ := ht.thrown; exact h1 f hf ht hc, h2⟩

theorem readMatrix_post (st : Stor) {P : Params W} (hw : P.wk.Calm) (μ : Mapping) (fn : List Byte) :
    (tReadMatrix st P μ fn).Post
      (fun L => Managed st P.stor ∨ usedType μ fn 0 .auto ≠ .ok .graph → NothingLeft L)
      (fun g L => arrays L = nonEmpty (ofCsr P.wk.wgt g.csc ++ ofCsr P.wk.wgt g.csr)) := by
  unfold tReadMatrix
  refine .using (S1 := fun c L => CooLeft st.l P.stor P.wk.wgt c L) ((readCoo_post st.l hw {} μ fn 0 .auto).mono ?_ (fun _ _ h => h)) ?_
  · intro L h hc
    refine h (hc.imp (fun hm => ⟨hm.1, hm.2.2⟩) fun hc => ⟨hc, .inr ⟨rfl, rfl⟩⟩)
  · intro coo L1 hL1
    refine .bind (twoGraphs_post st.l st P.stor _ _ P.T P.wk.wgt coo _) ?_
    rintro g _ ⟨L0, h0, rfl⟩
    refine .pure ?_
    dsimp only
    rw [List.append_nil, arrays_append, arrays_none (hL1.temp _), arrays_two h0]
    rfl

/-- **C84 (Matrix)**: as for a DiGraph. -/
theorem C84_matrix (st : Stor) (P : Params W) (hw : P.wk.Calm) (μ : Mapping) (fn : List Byte)
    (o : M (Matrix W)) (L : List Blk) (h : tReadMatrix st P μ fn o L) :
    (Threw o → Managed st P.stor ∨ usedType μ fn 0 .auto ≠ .ok .graph → NothingLeft L) ∧
    (∀ g, o = .ok g → arrays L = nonEmpty (ofCsr P.wk.wgt g.csc ++ ofCsr P.wk.wgt g.csr)) := by
  obtain ⟨h1, h2⟩ := readMatrix_post st hw μ fn o L h
  exact ⟨fun ht hc => by obtain ⟨f, hf, ht⟩ := ht.thrown; exact h1 f hf ht hc, h2⟩

theorem runT_length {l : List (TAct W)} {s s' : TMem W} (h : runActs stepT l s = .ok s') : s'.c.length = s.c.length := by
  induction l generalizing s with
  | nil => cases h; rfl
  | cons a l ih =>
    rw [runActs] at h
    cases h1 : stepT a s with
    | error f => rw [h1] at h; cases h
    | ok q =>
      rw [h1] at h
      rw [ih h]
      cases a with
      | setC i v =>
        unfold stepT at h1
        cases h2 : store s.c i v with
        | error f => simp only [h2, error_bind] at h1; cases h1
        | ok c => simp only [h2, ok_bind] at h1; cases h1; exact store_length h2
      | setW i v =>
        unfold stepT at h1
        cases h2 : store s.w i v with
        | error f => simp only [h2, error_bind] at h1; cases h1
        | ok c => simp only [h2, ok_bind] at h1; cases h1; rfl

/-- **C84 (Tensor)**: a load that throws leaves nothing, for every storage and every file; one that succeeds leaves the
arrays of the tensor. -/
theorem C84_tensor (s : Storage) (P : Params W) (μ : Mapping) (fn : List Byte) (ft : FileType)
    (o : M (Tensor W)) (L : List Blk) (h : tReadTensor s P μ fn 0 ft o L) :
    (Threw o → NothingLeft L) ∧ (∀ t, o = .ok t → arrays L = nonEmpty (ofTensor P.wk.wgt t)) := by
  have ha : ∀ (t : Tensor W) k, t.c.length = k → arrays (tensorBlocks s P.stor P.wk.wgt k t.m ++ []) = nonEmpty (ofTensor P.wk.wgt t) := by
    rintro t k rfl
    rw [List.append_nil, arrays_eq, tensorBlocks, ofTensor]
    cases P.wk.wgt <;> rfl
  have hp : (tReadTensor s P μ fn 0 ft).Post NothingLeft (fun t L => arrays L = nonEmpty (ofTensor P.wk.wgt t)) := by
    unfold tReadTensor
    refine .brun (fun _ _ _ => .nil) fun ft' hft => ?_
    split
    · refine .brun (fun _ _ _ => .nil) fun q _ => .balloc ?_
      refine .brun (fun f hf ht => absurd ht ((R.Calm.any _).calm f hf)) fun jc _ =>
        .brun (fun f hf ht => absurd ht ((R.Calm.any _).calm f hf)) fun jw _ =>
        .brun (fun f hf ht => absurd ht ((R.Calm.par (fun _ _ => .stepT ..) ..).calm f hf)) fun mem hmem => .pure ?_
      obtain ⟨sched, _, hrun⟩ := hmem
      exact ha ⟨mem.c, mem.w, q.order, q.m⟩ _ (by rw [runT_length hrun.symm]; exact alloc_length ..)
    · split
      · refine .brun (fun _ _ _ => .nil) fun p _ => .brun (fun _ _ _ => .nil) fun ⟨ls, p⟩ _ => .brun (fun _ _ _ => .nil) fun ⟨os, p⟩ _ =>
          .brun (fun _ _ _ => .nil) fun _ _ => .brun (fun _ _ _ => .nil) fun _ _ => .brun (fun _ _ _ => .nil) fun p _ =>
          .brun (fun _ _ _ => .nil) fun ⟨order, p⟩ _ => .brun (fun _ _ _ => .nil) fun ⟨m, p⟩ _ => .balloc ?_
        refine .brun (fun f hf ht => absurd ht ((R.Calm.readArr ..).calm f hf)) fun ⟨c, p⟩ hc =>
          .brun (fun f hf ht => absurd ht ((R.Calm.readWeights ..).calm f hf)) fun ⟨w, p⟩ _ => .pure ?_
        exact ha ⟨c, w, order, m⟩ _ (readArr_length hc)
      · exact .run (fun _ _ _ => .nil) fun _ h => nomatch h
  obtain ⟨h1, h2⟩ := hp o L h
  exact ⟨fun ht => by obtain ⟨f, hf, ht⟩ := ht.thrown; exact h1 f hf ht, h2⟩

/-! ### Violations with raw pointers -/

theorem Calm.atNlOrEol (μ : Mapping) (r : Reader) : Calm (atNlOrEol μ r) := by
  unfold Pigo.atNlOrEol
  split
  · exact .ok _
  · exact .bind (OobOnly.get ..).calm fun _ => .ok _

theorem Calm.moveToNextIntOrNl (μ : Mapping) (r : Reader) : Calm (moveToNextIntOrNl μ r) := by
  have hg : ∀ P r, Calm (guarded μ P r) := by
    intro P r
    unfold guarded
    split
    · exact .bind (OobOnly.get ..).calm fun _ => .ok _
    · exact .ok _
  have hn : ∀ n r, Calm (intOrNlN μ n r) := by
    intro n
    induction n with
    | zero => exact fun r => .ok _
    | succ n ih =>
      intro r
      unfold intOrNlN
      split
      · refine .bind (OobOnly.get ..).calm fun b => ?_
        split
        · exact .ok _
        · refine .bind (OobOnly.get ..).calm fun b => ?_
          split
          · exact .bind (OobOnly.skipCommentsN ..).calm fun _ => .ok _
          · exact ih _
      · exact .ok _
  unfold Pigo.moveToNextIntOrNl intOrNlRest
  refine .bind (hg ..) fun _ => .bind (OobOnly.scan ..).calm fun _ => .bind (hg ..) fun _ => ?_
  split
  · exact .ok _
  · refine .bind (OobOnly.get ..).calm fun b => ?_
    split
    · exact .bind (OobOnly.skipCommentsN ..).calm fun _ => .ok _
    · exact hn ..

theorem Calm.graphPlan (μ : Mapping) (lw ow T : Nat) (r : Reader) : Calm (graphPlan μ lw ow T r) := by
  unfold Pigo.graphPlan
  refine .bind (OobOnly.graphHeader ..).calm fun h => .bind (.mapE (fun _ => (OobOnly.graphRegion ..).calm) _) fun regions =>
    .bind (.mapE (fun rs => ?_) _) fun counts => .bind (.mapE (fun p => ?_) _) fun sts => .ok _
  · unfold graphCountAll
    refine .bind (.whileGood (fun c r => ?_) ..) fun _ => .ok _
    unfold graphCount
    refine .bind (.atNlOrEol ..) fun _ => .bind ?_ fun _ => .bind (.moveToNextIntOrNl ..) fun _ => .ok _
    unfold atZero
    split
    · exact .ok _
    · refine .bind (OobOnly.get ..).calm fun _ => ?_
      split
      · exact .ok _
      · refine .bind (OobOnly.get ..).calm fun _ => ?_
        split <;> exact .ok _
  · unfold graphSetAll
    generalize ({ off := _, ep := _, mx := 0, acts := [] } : GSt) = s
    generalize p.2.e - p.2.d = k
    generalize p.2 = r
    generalize (List.getD _ _ _ % 2 ^ lw) = n
    induction k generalizing s r with
    | zero =>
      unfold graphSetN
      split
      · exact .err calm_fuel
      · exact .ok _
    | succ k ih =>
      unfold graphSetN
      split
      · refine .bind ?_ fun q => ih _ _
        unfold graphSet
        refine .bind (.atNlOrEol ..) fun _ => ?_
        split
        · exact .bind (.moveToNextIntOrNl ..) fun _ => .ok _
        · refine .bind (OobOnly.readInt ..).calm fun _ => .bind ?_ fun _ => .ok _
          unfold graphSkip
          refine .bind (.atNlOrEol ..) fun _ => ?_
          split
          · exact .ok _
          · exact .moveToNextIntOrNl ..
      · exact .ok _

theorem graphInit_pos {base n m k : Nat} {j : Nat → Nat} {o : List Nat} (h : graphInit base n m (alloc j k) = .ok o) : 0 < k := by
  rcases Nat.eq_zero_or_pos k with rfl | hk
  · exfalso
    unfold graphInit at h
    split at h <;> cases h
  · exact hk

/-- The blocks left by `read_graph_` with raw pointers when it throws. -/
theorem readGraph_leaks (lw ow T : Nat) (μ : Mapping) (r : Reader) (ws : Storage) (f : Fault) (hf : Thrown f) (L : List Blk)
    (h : tReadGraph (W := W) ⟨.pointer, .pointer⟩ ws false lw ow T μ r (.error f) L) :
    ∃ m k, 0 < k ∧ L = [⟨.endpoints, m, true⟩, ⟨.offsets, k, true⟩] := by
  have hp : (tReadGraph (W := W) ⟨.pointer, .pointer⟩ ws false lw ow T μ r).Post
      (fun L => ∃ m k, 0 < k ∧ L = [⟨.endpoints, m, true⟩, ⟨.offsets, k, true⟩]) (fun _ _ => True) := by
    unfold tReadGraph
    refine .brun (fun f hf ht => absurd ht ((Calm.graphPlan ..).calm f hf.symm)) fun p _ => .balloc ?_
    refine .brun (fun f hf ht => absurd ht ((R.Calm.any _).calm f hf)) fun jo _ =>
      .brun (fun f hf ht => absurd ht ((R.Calm.any _).calm f hf)) fun je _ =>
      .brun (fun f hf ht => absurd ht ?_) fun o ho => ?_
    · refine Calm.calm (m := graphInit p.base p.n p.m (alloc jo (plusOne lw p.n))) ?_ f hf.symm
      unfold graphInit
      exact .bind (.runActs (fun _ _ => .storeAct ..) ..) fun _ => .store ..
    · have hk := graphInit_pos (Eq.symm ho)
      refine .brun (fun f hf ht => absurd ht ((R.Calm.par (fun _ _ => .sumStep (fun _ _ => .storeAct ..) (fun _ _ => .storeAct ..) ..) ..).calm f hf)) fun q _ =>
        .run (fun _ _ _ => ⟨p.m, _, hk, rfl⟩) fun _ _ => trivial
  exact (hp _ _ h).1 f rfl hf

/-- **C84 is violated** by `.graph` files: with raw pointer storage (the default) every load of a CSR that is rejected
because the counts of the header are wrong leaks both arrays, the offsets being non-empty. -/
theorem C84_graph_violated (P : Params W) (hwgt : P.wk.wgt = false) (μ : Mapping) (fn : List Byte) (p : Nat) (L : List Blk)
    (h : tReadCsr ⟨.pointer, .pointer⟩ P μ fn p .graph (.error .error) L) :
    ∃ m k, 0 < k ∧ L = [⟨.endpoints, m, true⟩, ⟨.offsets, k, true⟩] := by
  obtain ⟨o, L1, ⟨ho, rfl⟩, h⟩ := h
  cases ho
  obtain ⟨L2, h, rfl⟩ := h
  simp only [usedType, keep, unwind, List.filter_nil, List.nil_append] at h ⊢
  rw [if_neg (by decide), if_neg (by decide), if_pos (by decide), hwgt, if_neg (by decide)] at h
  obtain ⟨o, L3, h1, h⟩ := h
  cases o with
  | error f =>
    obtain ⟨h, rfl⟩ := h
    cases h
    exact readGraph_leaks _ _ _ _ _ _ _ (.inl rfl) _ h1
  | ok c => obtain ⟨L4, ⟨h, _⟩, _⟩ := h; cases h

/-- Two threads, 32 bit labels, 64 bit ordinals, no weights, raw pointers. -/
def ptrParams : Params Unit := { oneThread with T := 2, stor := .pointer }

/-- A `.graph` file that is rejected: the load throws and two arrays are left. -/
example : ∃ L, tReadCsr ⟨.pointer, .pointer⟩ ptrParams exGraphE0 (str "a.graph") 0 .graph (.error .error) L ∧
    ∃ m k, 0 < k ∧ L = [⟨.endpoints, m, true⟩, ⟨.offsets, k, true⟩] := by
  obtain ⟨out, h⟩ := loadGraph_exists (W := Unit) exGraphE0 32 64 2
  have h2 := C62_edge_count exGraphE0 (by decide) 32 64 2 3 2 (by decide) _ _ [] exGraphE0_ok (by decide) (by decide) out h
  subst h2
  obtain ⟨L, hL⟩ := ((C84_same_outcomes ptrParams .pointer ⟨.pointer, .pointer⟩ {} exGraphE0 (str "a.graph") .graph).2.1 (.error .error)).mpr
    ((C58_constructor ptrParams rfl exGraphE0 (str "a.graph") .graph (.inl rfl) _).mpr ⟨_, h, rfl⟩)
  exact ⟨L, hL, C84_graph_violated ptrParams rfl _ _ _ _ hL⟩

theorem unwind_raw (L : List Blk) (h : ∀ b ∈ L, b.raw = true) : unwind L = L := List.filter_eq_self.mpr h

theorem unwind_csrBlocks (wgt : Bool) (m k : Nat) :
    unwind (csrBlocks ⟨.pointer, .pointer⟩ .pointer wgt m k) = csrBlocks ⟨.pointer, .pointer⟩ .pointer wgt m k := by
  refine unwind_raw _ fun b hb => ?_
  cases wgt <;> simp [csrBlocks] at hb
  · rcases hb with rfl | rfl <;> rfl
  · rcases hb with rfl | rfl | rfl <;> rfl

theorem arrays_unwind_csrLeft {wgt : Bool} {c : Csr W} {L : List Blk}
    (h : CsrLeft ⟨.pointer, .pointer⟩ .pointer wgt c L) : arrays (unwind L) = nonEmpty (ofCsr wgt c) := by
  obtain ⟨L0, h0, rfl⟩ := h
  rw [unwind_append, arrays_append, arrays_none h0.unwind, unwind_csrBlocks, arrays_csr]; rfl

/-- **C84 is violated** by binary CSR files loaded as a COO with flags that are not implemented for them: with raw pointers
(the default) the load throws and every array of the CSR is lost. -/
theorem C84_coo_from_csr_violated (P : Params W) (hw : P.wk.Calm) (hs : P.stor = .pointer) (hT : 0 < P.T) (hlb : P.lb < 256)
    (hob : P.ob < 256) (cfg : Cfg) (hcfg : cfg.sl = true ∨ (cfg.ut = true ∧ cfg.sym = false)) (c : Csr W)
    (hf : Spec.FitsCsr P.lb P.ob P.wk.wgt P.cw c) (pad : Nat) (fn : List Byte) (o : M (Coo W)) (L : List Blk)
    (h : tReadCoo .pointer P cfg ⟨Spec.csrFile P.lb P.ob P.wk.wgt P.cw c, pad⟩ fn 0 .auto o L) :
    o = .error .nyi ∧ arrays L = nonEmpty (ofCsr P.wk.wgt c) := by
  have hu : usedType ⟨Spec.csrFile P.lb P.ob P.wk.wgt P.cw c, pad⟩ fn 0 .auto = .ok .csrBin := by
    rw [usedType, if_pos rfl]
    exact (C45_saved P.lb P.ob pad P.wk.wgt P.cw fn ⟨[], [], [], 0, 0, 0, 0⟩ c ⟨c, c⟩ ⟨[], [], 0, 0⟩).2.1
  have hm : HasAt ⟨Spec.csrFile P.lb P.ob P.wk.wgt P.cw c, pad⟩ 0 csrMagic := by
    rw [← csrBytes_eq]
    obtain ⟨l, hl⟩ := csrBytes_magic P.lb P.ob P.wk.wgt P.cw c
    refine hasAt_zero (t := Spec.le 1 P.lb ++ l) ?_ (le_ne_nil _ _)
    show csrBytes _ _ _ _ _ = _
    rw [hl, List.append_assoc]
  have hr : Rest ⟨Spec.csrFile P.lb P.ob P.wk.wgt P.cw c, pad⟩ 0 (csrBytes P.lb P.ob P.wk.wgt P.cw c ++ List.replicate pad 0) := by
    rw [csrBytes_eq]; exact rest_file
  unfold tReadCoo at h
  obtain ⟨o1, L1, ⟨ho1, rfl⟩, h⟩ := h
  cases ho1.trans hu
  obtain ⟨L2, h, rfl⟩ := h
  rw [if_neg (by decide), if_pos (by decide)] at h
  obtain ⟨o2, L3, h2, h⟩ := h
  have he : (readCsr P ⟨Spec.csrFile P.lb P.ob P.wk.wgt P.cw c, pad⟩ fn 0 .csrBin) o2 :=
    (congrFun (tReadCsr_erase ⟨.pointer, .pointer⟩ P _ fn 0 .csrBin) o2).mp ⟨L3, h2⟩
  obtain ⟨q, rfl, rfl⟩ := readCsr_at P hT hlb hob hf fn hr hm (.inr rfl) o2 he
  obtain ⟨L4, h3, rfl⟩ := h
  have hc := C28_not_yet_implemented (8 * P.ob) P.T P.stor cfg hcfg P.wk.wgt c o
    ((congrFun (tConvertCsr_erase .pointer P.stor (8 * P.ob) P.T cfg P.wk.wgt c) o).mp ⟨L4, h3⟩)
  subst hc
  have h4 := ((convertCsr_post .pointer P.stor (8 * P.ob) P.T cfg P.wk.wgt c) _ _ h3).1 _ rfl (.inr rfl)
  have h5 := (readCsr_post ⟨.pointer, .pointer⟩ hw _ fn 0 .csrBin _ _ h2).2 _ rfl
  refine ⟨rfl, ?_⟩
  rw [hs] at h5
  show arrays (unwind [] ++ (unwind L3 ++ L4)) = _
  rw [arrays_append, arrays_append, arrays_none h4.1, arrays_unwind_csrLeft h5, List.append_nil]
  rfl

example : binParams.wk.Calm ∧ binParams.stor = .pointer ∧ 0 < binParams.T ∧ binParams.lb < 256 ∧ binParams.ob < 256 ∧
    Spec.FitsCsr binParams.lb binParams.ob binParams.wk.wgt binParams.cw binCsr ∧
    nonEmpty (ofCsr binParams.wk.wgt binCsr) = [(.endpoints, 3), (.weights, 3), (.offsets, 4)] :=
  ⟨wUint_calm 8, rfl, by decide, by decide, by decide, binCsr_fits, by decide⟩

/-- **C84 is violated** by DiGraph files whose second half is rejected: with raw pointers (the default) every array of the
first half is lost.  The second half is rejected when it starts with `PIGO` but with none of the magic strings. -/
theorem C84_digraph_violated (P : Params W) (hw : P.wk.Calm) (hs : P.stor = .pointer) (hT : 0 < P.T) (hlb : P.lb < 256)
    (hob : P.ob < 256) (c : Csr W) (hf : Spec.FitsCsr P.lb P.ob P.wk.wgt P.cw c) (rest : List Byte) (pad : Nat) (fn : List Byte)
    (o : M (DiGraph W)) (L : List Blk)
    (h : tReadDiGraph ⟨.pointer, .pointer⟩ P ⟨str "PIGO-DiGraph-v1" ++ Spec.csrFile P.lb P.ob P.wk.wgt P.cw c ++ rest, pad⟩ fn .auto o L) :
    (Threw o → ∀ a ∈ nonEmpty (ofCsr P.wk.wgt c), a ∈ arrays L) ∧
    (str "PIGO" <+: rest → 4 < rest.length →
      (∀ s ∈ [str "PIGO-COO-v1", str "PIGO-CSR-v2", str "PIGO-DiGraph-v1", str "PIGO-Tensor-2"], ¬ s <+: rest) →
      o = .error .error ∧ arrays L = nonEmpty (ofCsr P.wk.wgt c)) := by
  generalize hbs : str "PIGO-DiGraph-v1" ++ Spec.csrFile P.lb P.ob P.wk.wgt P.cw c ++ rest = bs at h
  have hbs : bs = digraphMagic ++ (csrBytes P.lb P.ob P.wk.wgt P.cw c ++ rest) := by
    rw [← hbs, csrBytes_eq, List.append_assoc]; rfl
  obtain ⟨l, hl⟩ := csrBytes_magic P.lb P.ob P.wk.wgt P.cw c
  have hm0 : HasAt ⟨bs, pad⟩ 0 digraphMagic := by
    refine hasAt_zero (t := csrBytes P.lb P.ob P.wk.wgt P.cw c ++ rest) hbs ?_
    rw [hl]; simp [csrMagic, str]
  have hm1 : HasAt ⟨bs, pad⟩ digraphMagic.length csrMagic := by
    refine ⟨?_, ?_⟩
    · show _ <+: bs.drop _
      rw [hbs, List.drop_left, hl]
      simp only [List.append_assoc]
      exact List.prefix_append _ _
    · show _ < bs.length
      rw [hbs, hl]
      simp only [List.length_append, Spec.le, List.length_map, List.length_range]
      omega
  have hr : Rest ⟨bs, pad⟩ 0 (bs ++ List.replicate pad 0) := rest_file
  have hr1 : Rest ⟨bs, pad⟩ digraphMagic.length (csrBytes P.lb P.ob P.wk.wgt P.cw c ++ (rest ++ List.replicate pad 0)) := by
    have h := hr
    rw [show bs ++ List.replicate pad 0 = digraphMagic ++ (csrBytes P.lb P.ob P.wk.wgt P.cw c ++ (rest ++ List.replicate pad 0)) by
      rw [hbs]; simp only [List.append_assoc]] at h
    have := h.next
    rwa [Nat.zero_add] at this
  have hu : usedType ⟨bs, pad⟩ fn 0 .auto = .ok .digraphBin := by
    rw [usedType, if_pos rfl]
    exact C45_magic _ fn 0 (str "PIGO-DiGraph-v1", .digraphBin) (by simp [magics]) hm0
  have hfst := readCsr_at P hT hlb hob hf fn hr1 hm1 (.inl rfl)
  unfold tReadDiGraph at h
  obtain ⟨o1, L1, ⟨ho1, rfl⟩, h⟩ := h
  cases ho1.trans hu
  obtain ⟨L2, h, rfl⟩ := h
  rw [if_pos rfl] at h
  obtain ⟨o2, L3, ⟨ho2, rfl⟩, h⟩ := h
  cases ho2.trans (rdStr_good hm0)
  obtain ⟨L4, h, rfl⟩ := h
  simp only [Nat.zero_add] at h
  obtain ⟨o3, L5, h3, h⟩ := h
  have he : (readCsr P ⟨bs, pad⟩ fn digraphMagic.length .auto) o3 :=
    (congrFun (tReadCsr_erase ⟨.pointer, .pointer⟩ P _ fn _ .auto) o3).mp ⟨L5, h3⟩
  obtain ⟨q, rfl, rfl⟩ := hfst o3 he
  have h5 := (readCsr_post ⟨.pointer, .pointer⟩ hw _ fn _ .auto _ _ h3).2 _ rfl
  rw [hs] at h5
  obtain ⟨L6, h, rfl⟩ := h
  obtain ⟨o4, L7, h6, h⟩ := h
  dsimp only at h6
  have hsum : ∀ f, o = .error f → arrays (keep o [] ++ (keep o [] ++ (keep o L5 ++ L6))) = nonEmpty (ofCsr P.wk.wgt c) ++ arrays L6 := by
    rintro f rfl
    show arrays (unwind L5 ++ L6) = _
    rw [arrays_append, arrays_unwind_csrLeft h5]
  refine ⟨fun ht a ha => ?_, fun hp h4 hn => ?_⟩
  · obtain ⟨f, hf, -⟩ := ht.thrown
    rw [hsum f hf]
    exact List.mem_append_left _ ha
  · have hat : ∀ s, HasAt ⟨bs, pad⟩ (digraphMagic.length + (csrBytes P.lb P.ob P.wk.wgt P.cw c).length) s ↔ s <+: rest ∧ s.length < rest.length := by
      intro s
      unfold HasAt
      rw [show (⟨bs, pad⟩ : Mapping).bytes = bs from rfl, hbs, ← List.append_assoc, ← List.length_append, List.drop_left, List.length_append
        (bs := rest)]
      constructor <;> rintro ⟨a, b⟩ <;> exact ⟨a, by omega⟩
    have hg : usedType ⟨bs, pad⟩ fn (digraphMagic.length + (csrBytes P.lb P.ob P.wk.wgt P.cw c).length) .auto = .error .error := by
      rw [usedType, if_pos rfl, guess_eq, if_neg, if_neg, if_neg, if_neg, if_pos]
      · exact (hat _).mpr ⟨hp, h4⟩
      · exact fun h => hn tensorMagic (.tail _ (.tail _ (.tail _ (.head _)))) ((hat _).mp h).1
      · exact fun h => hn digraphMagic (.tail _ (.tail _ (.head _))) ((hat _).mp h).1
      · exact fun h => hn csrMagic (.tail _ (.head _)) ((hat _).mp h).1
      · exact fun h => hn cooMagic (.head _) ((hat _).mp h).1
    unfold tReadCsr at h6
    obtain ⟨o5, L8, ⟨ho5, rfl⟩, h6⟩ := h6
    cases ho5.trans hg
    obtain ⟨rfl, rfl⟩ := h6
    obtain ⟨rfl, rfl⟩ := h
    exact ⟨rfl, by rw [hsum _ rfl]; exact List.append_nil _⟩

/-- A second half written by an older version. -/
example : str "PIGO" <+: str "PIGO-CSR-v1 " ∧ 4 < (str "PIGO-CSR-v1 ").length ∧
    ∀ s ∈ [str "PIGO-COO-v1", str "PIGO-CSR-v2", str "PIGO-DiGraph-v1", str "PIGO-Tensor-2"], ¬ s <+: str "PIGO-CSR-v1 " := by
  decide

/-- A rejected Matrix Market file with raw pointers: the load throws, after the arrays were allocated, and nothing is left. -/
example : ∃ L, tReadCoo .pointer ptrParams {} exMmTop (str "a.mtx") 0 .matrixMarket (.error .error) L ∧ NothingLeft L := by
  obtain ⟨out, hout⟩ := loadMm_exists (μ := exMmTop) (lw := 32) (ow := 64) (wk := wNone) {} 2 ⟨fun _ => 0, fun _ => 0, fun _ => ()⟩
  have hent : Spec.entriesOf Spec.entry0 exMmTopBody = [(65535, 1, ()), (1, 2, ())] := by decide
  have h := C22_entry_outside exMmTop (by decide) 32 64 2 (by decide) (R := 2) (C := 2) (N := 2) (body := exMmTopBody)
    ⟨by decide, by decide, ⟨[str "%%MatrixMarket matrix coordinate pattern general"], str "2 2 2", by decide, by decide, [], by decide⟩⟩
    (wk := wNone) .none ⟨by decide, by
      intro l h
      have : l = [] := by simpa [exMmTopBody] using h.symm
      subst this; decide⟩ (fun _ _ => trivial) (by rw [hent]; decide) (by decide) (by decide) (by rw [hent]; decide)
    (by rw [hent]; decide) out hout
  subst h
  have hr : (readCoo ptrParams {} exMmTop (str "a.mtx") 0 .matrixMarket).Out (.error .error) := by
    refine ⟨.ok .matrixMarket, rfl, ?_⟩
    dsimp only
    rw [if_pos (by decide)]
    refine ⟨.error .error, ?_, rfl⟩
    unfold readCooFmt
    rw [if_pos rfl]
    exact ⟨.error .error, hout, rfl⟩
  obtain ⟨L, hL⟩ := ((C84_same_outcomes ptrParams .pointer ⟨.pointer, .pointer⟩ {} exMmTop (str "a.mtx") .matrixMarket).1 (.error .error)).mpr hr
  exact ⟨L, hL, (C84_coo .pointer ptrParams wNone_calm {} exMmTop (str "a.mtx") .matrixMarket _ L hL).1 (.inl rfl)
    (.inr ⟨by decide, .inl (by decide)⟩)⟩

end Pigo
