import Verif.Lemmas.Signed

/-!
# Signed types: `.graph` files and tensors overflow or agree with the unsigned types
-/

namespace Pigo

variable {W : Type} {α β S : Type}

theorem wrapS_cases (w n : Nat) : wrapS w n = .error .overflow ∨ (wrapS w n = .ok n ∧ n < 2 ^ (w - 1) ∧ n < 2 ^ w) := by
  unfold wrapS
  split
  · rename_i h; exact .inr ⟨rfl, h, Nat.lt_of_lt_of_le h (pow_pred_le w)⟩
  · exact .inl rfl

/-- A checked conversion before `f` against the wrapped value given to `g`. -/
theorem OvSim.wrapS {w n : Nat} {f : Nat → M β} {b : M β} (h : n < 2 ^ (w - 1) → n % 2 ^ w = n → OvSim (f n) b) :
    OvSim (wrapS w n >>= f) b := by
  rcases wrapS_cases w n with h1 | ⟨h1, h2, h3⟩
  · rw [h1]; exact .inl rfl
  · rw [h1, ok_bind]; exact h h2 (Nat.mod_eq_of_lt h3)

/-! ## `.graph` -/

section
variable (μ : Mapping)

theorem sGraphHeader_sim (lw ow : Nat) (r : Reader) : OvSim (sGraphHeader μ lw ow r) (graphHeader μ lw ow r) := by
  unfold sGraphHeader graphHeader
  exact OvSim.same (fun r => (readInt_sim μ lw r).bind' (fun x => OvSim.same (fun r => (readInt_sim μ ow r).bind' (fun y =>
    .refl _))))

theorem sGraphSet_sim (lw ow : Nat) (s : GSt) (r : Reader) : OvSim (sGraphSet μ lw ow s r) (graphSet μ lw ow s r) := by
  unfold sGraphSet graphSet
  refine OvSim.same (fun b => ?_)
  cases b
  · simp only [Bool.false_eq_true, if_false]
    refine (readInt_sim μ lw r).bind' (fun x => ?_)
    exact OvSim.wrapS (fun _ h => by rw [h]; exact .refl _)
  · simp only [if_true]
    exact OvSim.wrapS (fun _ h => by rw [h]; exact .refl _)

theorem sGraphSetN_sim (lw ow n : Nat) : ∀ (k : Nat) (s : GSt) (r : Reader),
    OvSim (sGraphSetN μ lw ow n k s r) (graphSetN μ lw ow n k s r)
  | 0, _, _ => .refl _
  | k+1, s, r => by
    simp only [sGraphSetN, graphSetN]
    split
    · exact (sGraphSet_sim μ lw ow s r).bind' (fun p => sGraphSetN_sim lw ow n k _ _)
    · exact .refl _

theorem sGraphSetAll_sim (lw ow n base : Nat) (nlOffs intOffs : List Nat) (p : Nat × Reader) :
    OvSim (sGraphSetAll μ lw ow n base nlOffs intOffs p) (graphSetAll μ lw ow n base nlOffs intOffs p) := by
  unfold sGraphSetAll graphSetAll
  exact OvSim.wrapS (fun _ h1 => OvSim.wrapS (fun _ h2 => by rw [h1, h2]; exact sGraphSetN_sim μ lw ow n _ _ _))

theorem sGraphPlan_sim (lw ow T : Nat) (r : Reader) : OvSim (sGraphPlan μ lw ow T r) (graphPlan μ lw ow T r) := by
  unfold sGraphPlan graphPlan
  refine (sGraphHeader_sim μ lw ow r).bind' (fun h => OvSim.same (fun regions => OvSim.same (fun counts => ?_)))
  refine OvSim.wrapS (fun _ h1 => OvSim.wrapS (fun _ h2 => ?_))
  simp only [h1, h2]
  exact (mapE_sim (fun p => sGraphSetAll_sim μ lw ow _ _ _ _ p) _).bind' (fun sts => .refl _)

end

theorem sGraphFinish_sim (lw ow : Nat) (p : GPlan) (o e : List Nat) :
    OvSim (sGraphFinish lw ow p o e : M (Csr W)) (graphFinish lw ow p o e) := by
  unfold sGraphFinish graphFinish
  refine OvSim.wrapS (fun h _ => ?_)
  rw [twice_lt (Nat.lt_of_lt_of_le h (pow_pred_le ow))]
  split
  · exact .refl _
  · split
    · exact .refl _
    · exact OvSim.wrapS (fun _ h => by rw [h]; exact .refl _)

theorem RSim.lift {a b : M α} (h : OvSim a b) : RSim (R.lift a) (R.lift b) := by
  rintro o rfl
  rcases h with h | h
  · exact .inl h
  · exact .inr h

/-- A checked conversion in a nondeterministic computation. -/
theorem RSim.wrapS {w n : Nat} {f : Nat → R β} {q : R β} (h : n < 2 ^ (w - 1) → RSim (f n) q) :
    RSim (R.lift (wrapS w n) >>= f) q := by
  rintro out ⟨o, ho, hk⟩
  cases ho
  rcases wrapS_cases w n with h1 | ⟨h1, h2, _⟩
  · rw [h1] at hk; exact .inl hk
  · rw [h1] at hk; exact h h2 out hk

theorem sReadGraph_sim (lw ow T : Nat) (μ : Mapping) (r : Reader) :
    RSim (sReadGraph lw ow T μ r : R (Csr W)) (readGraph lw ow T μ r) := by
  unfold sReadGraph readGraph
  refine (RSim.lift (sGraphPlan_sim μ lw ow T r)).bind (fun p => RSim.wrapS (fun h => ?_))
  rw [plusOne_small h]
  exact RSim.same (fun jo => RSim.same (fun je => RSim.same (fun o => RSim.same (fun x => RSim.lift (sGraphFinish_sim lw ow p _ _)))))

/-! ## CSR to COO -/

theorem sConvertCsr_sim (ow T : Nat) (stor : Storage) (cfg : Cfg) (wgt : Bool) (c : Csr W) :
    RSim (sConvertCsr ow T stor cfg wgt c) (convertCsr ow T stor cfg wgt c) := by
  unfold sConvertCsr convertCsr
  refine RSim.same (fun nrows => RSim.same (fun ncols => (RSim.lift ?_).bind (fun m => RSim.refl _)))
  split
  · rcases wrapS_cases ow (c.m * 2) with h | ⟨h, _, h2⟩
    · exact .inl h
    · rw [h, Nat.mod_eq_of_lt h2]; exact .refl _
  · exact .refl _

/-! ## Tensors -/

section
variable (μ : Mapping) (lw : Nat) (wk : WKind W)

theorem sTensorOrder_sim (ow : Nat) (wgt : Bool) (r : Reader) : OvSim (sTensorOrder μ ow wgt r) (tensorOrder μ ow wgt r) := by
  unfold sTensorOrder tensorOrder
  refine OvSim.same (fun r => OvSim.same (fun c => OvSim.wrapS (fun _ h => ?_)))
  simp only [h]
  cases wgt
  · simp only [Bool.false_eq_true, if_false]
    exact wrapS_sim ow _
  · simp only [if_true]; exact .refl _

theorem sSkipCoords_sim : ∀ (k : Nat) (r : Reader), OvSim (sSkipCoords μ lw wk k r) (skipCoords μ lw wk k r)
  | 0, _ => .refl _
  | k+1, r => by
    simp only [sSkipCoords, skipCoords]
    have hs : ∀ r : Reader, OvSim (if !r.good then Except.ok (false, r) else sSkipCoords μ lw wk k r)
        (if !r.good then Except.ok (false, r) else skipCoords μ lw wk k r) := by
      intro r
      split
      · exact .refl _
      · exact sSkipCoords_sim k r
    split
    · exact OvSim.same hs
    · exact (readInt_sim μ lw r).bind' (fun x => OvSim.same hs)

theorem sTensorCount_sim (order pos : Nat) (r : Reader) : OvSim (sTensorCount μ lw wk order pos r) (tensorCount μ lw wk order pos r) := by
  unfold sTensorCount tensorCount
  exact (sSkipCoords_sim μ lw wk order r).bind' (fun _ => .refl _)

theorem sReadCoords_sim (order pos : Nat) : ∀ (k idx : Nat) (acts : List (TAct W)) (r : Reader),
    OvSim (sReadCoords μ lw order pos k idx acts r) (readCoords μ lw order pos k idx acts r)
  | 0, _, _, _ => .refl _
  | k+1, idx, acts, r => by
    simp only [sReadCoords, readCoords]
    refine (readInt_sim μ lw r).bind' (fun x => ?_)
    split
    · exact .refl _
    · exact sReadCoords_sim order pos k _ _ _

theorem sTensorSet_sim (order : Nat) (st : Nat × List (TAct W)) (r : Reader) :
    OvSim (sTensorSet μ lw wk order st r) (tensorSet μ lw wk order st r) := by
  unfold sTensorSet tensorSet
  exact (sReadCoords_sim μ lw order _ _ _ _ r).bind' (fun _ => .refl _)

theorem sTensorCountAll_sim (order : Nat) (rs : Reader) : OvSim (sTensorCountAll μ lw wk order rs) (tensorCountAll μ lw wk order rs) := by
  unfold sTensorCountAll tensorCountAll
  exact (whileGood_sim (sTensorCount_sim μ lw wk order) _ _ _).bind' (fun _ => .refl _)

theorem sTensorSetAll_sim (order : Nat) (offs : List Nat) (p : Nat × Reader) :
    OvSim (sTensorSetAll μ lw wk order offs p) (tensorSetAll μ lw wk order offs p) := by
  unfold sTensorSetAll tensorSetAll
  exact (whileGood_sim (sTensorSet_sim μ lw wk order) _ _ _).bind' (fun _ => .refl _)

theorem sTensorPlan_sim (ow T : Nat) (r : Reader) : OvSim (sTensorPlan μ lw ow wk T r) (tensorPlan μ lw ow wk T r) := by
  unfold sTensorPlan tensorPlan
  refine (sTensorOrder_sim μ ow wk.wgt r).bind' (fun order => OvSim.same (fun regions =>
    (mapE_sim (sTensorCountAll_sim μ lw wk order) _).bind' (fun counts => (mapE_sim (sTensorSetAll_sim μ lw wk order _) _).bind' (fun acts => ?_))))
  exact OvSim.wrapS (fun _ h => by rw [h]; exact .refl _)

end

theorem sReadTensorEl_sim (μ : Mapping) (lw ow : Nat) (wk : WKind W) (T : Nat) (r : Reader) :
    RSim (sReadTensorEl μ lw ow wk T r) (readTensorEl μ lw ow wk T r) := by
  unfold sReadTensorEl readTensorEl
  refine (RSim.lift (sTensorPlan_sim μ lw wk ow T r)).bind (fun p => RSim.wrapS (fun h => ?_))
  rw [inOrd_lt (Nat.lt_of_lt_of_le h (pow_pred_le ow))]
  exact RSim.refl _

theorem sMaxEntry_sim (ow : Nat) (t : Tensor W) (e : Nat) : ∀ (is mx : List Nat), OvSim (sMaxEntry ow t e is mx) (maxEntry ow t e is mx)
  | [], _ => .refl _
  | idx :: is, mx => by
    simp only [sMaxEntry, maxEntry]
    refine OvSim.wrapS (fun h _ => ?_)
    rw [inOrd_lt (Nat.lt_of_lt_of_le h (pow_pred_le ow))]
    exact OvSim.same (fun v => OvSim.same (fun old => OvSim.same (fun mx => sMaxEntry_sim ow t e is mx)))

theorem sMaxThread_sim (ow : Nat) (t : Tensor W) : ∀ (es mx : List Nat), OvSim (sMaxThread ow t es mx) (maxThread ow t es mx)
  | [], _ => .refl _
  | e :: es, mx => by
    simp only [sMaxThread, maxThread]
    exact (sMaxEntry_sim ow t e _ mx).bind' (fun mx => sMaxThread_sim ow t es mx)

theorem sMaxLabels_sim (ow T : Nat) (t : Tensor W) : RSim (sMaxLabels ow T t) (maxLabels ow T t) := by
  unfold sMaxLabels maxLabels
  exact RSim.same (fun its => (RSim.lift (mapE_sim (fun l => sMaxThread_sim ow t l _) its)).bind (fun ms => RSim.refl _))

end Pigo
