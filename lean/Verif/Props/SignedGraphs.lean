import Verif.Lemmas.SignedGraphs
import Verif.Props.SignedFiles
import Verif.Props.Graph
import Verif.Props.CsrSort

/-!
# Signed label and ordinal types: DiGraph, Matrix, neighbors, `new_csr_without_dups`

C98.  A signed overflow is the outcome `.error .overflow`.
-/

namespace Pigo

variable {W : Type}

theorem readDiGraph_from {P : Params W} {μ : Mapping} {fn : List Byte} {ft t : FileType} (ht : usedType μ fn 0 ft = .ok t) (h : t ≠ .digraphBin) :
    readDiGraph P μ fn ft = readCoo P {} μ fn 0 ft >>= fun coo => fromCoo (8 * P.lb) (8 * P.ob) P.T P.wk.wgt coo := by
  unfold readDiGraph
  rw [ht, liftOk, if_neg h]

theorem sReadDiGraph_from {P : Params W} {μ : Mapping} {fn : List Byte} {ft t : FileType} (ht : usedType μ fn 0 ft = .ok t) (h : t ≠ .digraphBin) :
    sReadDiGraph P μ fn ft = sReadCoo P {} μ fn 0 ft >>= fun coo => sFromCoo (8 * P.lb) (8 * P.ob) P.T P.wk.wgt coo := by
  unfold sReadDiGraph
  rw [ht, liftOk, if_neg h]

theorem sReadCoo_simT (P : Params W) (cfg : Cfg) (μ : Mapping) (fn : List Byte) (ft t : FileType) (ht : usedType μ fn 0 ft = .ok t)
    (htext : t = .matrixMarket ∨ t = .edgeList ∨ t = .graph) : RSim (sReadCoo P cfg μ fn 0 ft) (readCoo P cfg μ fn 0 ft) := by
  intro o ho
  rcases htext with h | h | rfl
  · exact C98_refines_coo P cfg μ fn 0 ft t ht (.inl h) o ho
  · exact C98_refines_coo P cfg μ fn 0 ft t ht (.inr h) o ho
  · exact C98_refines_coo_graph P cfg μ fn 0 ft ht o ho

theorem text_ne_digraph {t : FileType} (htext : t = .matrixMarket ∨ t = .edgeList ∨ t = .graph) : t ≠ .digraphBin := by
  rcases htext with rfl | rfl | rfl <;> decide

/-! ## arbitrary input: overflow, or as with unsigned types -/

/-- C98: `DiGraph(fn)` of any text or `.graph` file with signed types overflows or does what it does with the unsigned types. -/
theorem C98_refines_digraph (P : Params W) (μ : Mapping) (fn : List Byte) (ft t : FileType) (ht : usedType μ fn 0 ft = .ok t)
    (htext : t = .matrixMarket ∨ t = .edgeList ∨ t = .graph) (o : M (DiGraph W))
    (h : (sReadDiGraph P μ fn ft).Out o) : o = .error .overflow ∨ (readDiGraph P μ fn ft).Out o := by
  rw [sReadDiGraph_from ht (text_ne_digraph htext)] at h
  rw [readDiGraph_from ht (text_ne_digraph htext)]
  exact (sReadCoo_simT P {} μ fn ft t ht htext).bind (fun _ => sFromCoo_sim _ _ _ _ _) o h

/-- C98: the same for `Matrix(fn)`. -/
theorem C98_refines_matrix (P : Params W) (μ : Mapping) (fn : List Byte) (t : FileType) (ht : usedType μ fn 0 .auto = .ok t)
    (htext : t = .matrixMarket ∨ t = .edgeList ∨ t = .graph) (o : M (Matrix W))
    (h : (sReadMatrix P μ fn).Out o) : o = .error .overflow ∨ (readMatrix P μ fn).Out o :=
  (sReadCoo_simT P {} μ fn .auto t ht htext).bind (fun _ => sMatrixFromCoo_sim _ _ _ _ _) o h

/-- C98: `DiGraph(coo)` and `Matrix(coo)` of any COO. -/
theorem C98_refines_from_coo (lw ow T : Nat) (wgt : Bool) (coo : Coo W) :
    (∀ o, (sFromCoo lw ow T wgt coo).Out o → o = .error .overflow ∨ (fromCoo lw ow T wgt coo).Out o) ∧
    (∀ o, (sMatrixFromCoo lw ow T wgt coo).Out o → o = .error .overflow ∨ (matrixFromCoo lw ow T wgt coo).Out o) :=
  ⟨sFromCoo_sim lw ow T wgt coo, sMatrixFromCoo_sim lw ow T wgt coo⟩

/-- C98: `new_csr_without_dups()` of any CSR. -/
theorem C98_refines_without_dups (lw ow T : Nat) (wgt : Bool) (wlt : W → W → Prop) (c : Csr W) (o : M (Csr W × Csr W))
    (h : (sWithoutDups lw ow T wgt wlt c).Out o) : o = .error .overflow ∨ (withoutDups lw T wgt wlt c).Out o :=
  sWithoutDups_sim lw ow T wgt wlt c o h

/-! ## no overflow -/

theorem readGraph_boundN {μ : Mapping} {lw ow kn km L T : Nat} (hkn : kn + 1 ≤ 2 ^ (lw - 1)) (h0 : 0 < kn) (hkm : 2 * km ≤ 2 ^ (ow - 1))
    (hn : Spec.NumbersBelow kn μ.bytes) (hm : Spec.NumbersBelow km μ.bytes) {r : Reader} (hr : r.d ≤ L ∧ r.e = L)
    (hlw : T * L + 2 < 2 ^ (lw - 1)) (how : (T + 1) * L < 2 ^ (ow - 1)) {c : Csr W} (ho : (readGraph lw ow T μ r).Out (.ok c)) :
    c.n + 1 < 2 ^ (lw - 1) := by
  obtain ⟨_, h2⟩ := sGraphPlan_small (T := T) (L := L) (lw := lw) (ow := ow) (by omega) h0 (by omega) hn hm hr hlw how
  obtain ⟨o, ho, hk⟩ := ho
  cases ho
  cases hp : graphPlan μ lw ow T r with
  | error f => rw [hp] at hk; cases hk
  | ok p =>
    rw [hp] at hk
    obtain ⟨o, _, hk⟩ := hk
    cases o with
    | error f => cases hk
    | ok jo =>
    obtain ⟨o, _, hk⟩ := hk
    cases o with
    | error f => cases hk
    | ok je =>
    obtain ⟨o, _, hk⟩ := hk
    cases o with
    | error f => cases hk
    | ok oo =>
    obtain ⟨o, _, hk⟩ := hk
    cases o with
    | error f => cases hk
    | ok oe =>
    have hk : graphFinish lw ow p oe.1 oe.2 = .ok c := Eq.symm hk
    unfold graphFinish at hk
    split at hk
    · cases hk
    · split at hk
      · cases hk
      · cases hk
        have := (h2 p hp).2.1
        simp only
        omega

theorem convertCsr_dims {ow T : Nat} {stor : Storage} {wgt : Bool} {c : Csr W} {c' : Coo W}
    (h : (convertCsr ow T stor {} wgt c).Out (.ok c')) : c'.n = c.n ∧ c'.m = c.m := by
  unfold convertCsr at h
  obtain ⟨o, _, h⟩ := h
  cases o with
  | error f => cases h
  | ok nr =>
  obtain ⟨o, _, h⟩ := h
  cases o with
  | error f => cases h
  | ok nc =>
  obtain ⟨o, hm, h⟩ := h
  cases hm
  obtain ⟨o, _, h⟩ := h
  cases o with
  | error f => cases h
  | ok j =>
  obtain ⟨o, _, h⟩ := h
  cases o with
  | error f => cases h
  | ok its =>
  obtain ⟨o, _, h⟩ := h
  cases o with
  | error f => cases h
  | ok th =>
  obtain ⟨o, _, h⟩ := h
  cases o with
  | error f => cases h
  | ok mem => cases h; exact ⟨rfl, rfl⟩

/-- `COO(fn)` of such a file: the executions, and the sizes loaded. -/
theorem sReadCoo_all_small (P : Params W) (μ : Mapping) (fn : List Byte) (ft t : FileType) (ht : usedType μ fn 0 ft = .ok t)
    (htext : t = .matrixMarket ∨ t = .edgeList ∨ t = .graph) (h : Spec.SignedFit μ.bytes (8 * P.lb) (8 * P.ob) P.T)
    (hrows : t = .graph → P.T * μ.bytes.length + 2 < 2 ^ (8 * P.lb - 1)) :
    sReadCoo P {} μ fn 0 ft = readCoo P {} μ fn 0 ft ∧
    ∀ c, (readCoo P {} μ fn 0 ft).Out (.ok c) → c.n + 1 < 2 ^ (8 * P.lb - 1) ∧ c.m < 2 ^ (8 * P.ob - 1) := by
  by_cases hg : t = .graph
  · subst hg
    refine ⟨by funext o; exact propext (C98_coo_graph_same P {} μ fn 0 ft (Nat.zero_le _) ht h (hrows rfl) o), fun c hc => ?_⟩
    obtain ⟨k, hk, h1, h2⟩ := h.numbers
    obtain ⟨f1, f2⟩ := SignedFit.four h
    rw [readCoo_graph ht, readCsr_graph rfl] at hc
    split at hc
    · obtain ⟨o, ho, hc⟩ := hc
      cases ho; cases hc
    · obtain ⟨o, ⟨o1, ho1, hp⟩, hc⟩ := hc
      cases o1 with
      | error f => cases hp; cases hc
      | ok g =>
        cases hp
        obtain ⟨e1, e2⟩ := convertCsr_dims hc
        have b1 := readGraph_boundN (L := μ.bytes.length) (by omega) (SignedFit.pos hk) h2 hk hk ⟨Nat.zero_le _, rfl⟩ (hrows rfl) (by omega) ho1
        have b2 := readGraph_bound (L := μ.bytes.length) (by omega) (SignedFit.pos hk) h2 hk hk ⟨Nat.zero_le _, rfl⟩ (hrows rfl) (by omega) ho1
        have e3 : P.T * (2 * μ.bytes.length) = 2 * (P.T * μ.bytes.length) := Nat.mul_left_comm ..
        rw [e3] at f1
        simp only at e1 e2
        omega
  · have ht2 : t = .matrixMarket ∨ t = .edgeList := by
      rcases htext with h | h | h
      · exact .inl h
      · exact .inr h
      · exact absurd h hg
    refine ⟨by funext o; exact propext (C98_coo_text_same P {} μ fn 0 ft t (Nat.zero_le _) ht ht2 h o), fun c hc => ?_⟩
    rw [readCoo_textS ht ht2] at hc
    obtain ⟨o, ho, hc⟩ := hc
    cases o with
    | error f => cases hc
    | ok q => cases hc; exact (sReadCooText_small P {} μ 0 t (Nat.zero_le _) ht2 h).2 q ho

/-- C98: `DiGraph(fn)` with signed types of any text or `.graph` file without large numbers: no execution overflows, and the
executions are the ones with the unsigned types. -/
theorem C98_digraph_same (P : Params W) (μ : Mapping) (fn : List Byte) (ft t : FileType) (ht : usedType μ fn 0 ft = .ok t)
    (htext : t = .matrixMarket ∨ t = .edgeList ∨ t = .graph) (h : Spec.SignedFit μ.bytes (8 * P.lb) (8 * P.ob) P.T)
    (hrows : t = .graph → P.T * μ.bytes.length + 2 < 2 ^ (8 * P.lb - 1)) (o : M (DiGraph W)) :
    (sReadDiGraph P μ fn ft).Out o ↔ (readDiGraph P μ fn ft).Out o := by
  suffices hh : sReadDiGraph P μ fn ft = readDiGraph P μ fn ft by rw [hh]
  obtain ⟨h1, h2⟩ := sReadCoo_all_small P μ fn ft t ht htext h hrows
  rw [sReadDiGraph_from ht (text_ne_digraph htext), readDiGraph_from ht (text_ne_digraph htext), h1]
  exact R.bind_congrOut (fun c hc => sFromCoo_small _ _ c (h2 c hc).1 (h2 c hc).2)

/-- C98: the same for `Matrix(fn)`. -/
theorem C98_matrix_same (P : Params W) (μ : Mapping) (fn : List Byte) (t : FileType) (ht : usedType μ fn 0 .auto = .ok t)
    (htext : t = .matrixMarket ∨ t = .edgeList ∨ t = .graph) (h : Spec.SignedFit μ.bytes (8 * P.lb) (8 * P.ob) P.T)
    (hrows : t = .graph → P.T * μ.bytes.length + 2 < 2 ^ (8 * P.lb - 1)) (o : M (Matrix W)) :
    (sReadMatrix P μ fn).Out o ↔ (readMatrix P μ fn).Out o := by
  suffices hh : sReadMatrix P μ fn = readMatrix P μ fn by rw [hh]
  obtain ⟨h1, h2⟩ := sReadCoo_all_small P μ fn .auto t ht htext h hrows
  unfold sReadMatrix readMatrix
  rw [h1]
  exact R.bind_congrOut (fun c hc => sMatrixFromCoo_small _ _ c (h2 c hc).1 (h2 c hc).2)

/-- C98: `DiGraph(coo)` and `Matrix(coo)` of any COO whose sizes fit the signed types. -/
theorem C98_from_coo_same (lw ow T : Nat) (wgt : Bool) (c : Coo W) (hn : c.n + 1 < 2 ^ (lw - 1)) (hm : c.m < 2 ^ (ow - 1)) :
    (∀ o, (sFromCoo lw ow T wgt c).Out o ↔ (fromCoo lw ow T wgt c).Out o) ∧
    (∀ o, (sMatrixFromCoo lw ow T wgt c).Out o ↔ (matrixFromCoo lw ow T wgt c).Out o) := by
  rw [sFromCoo_small T wgt c hn hm, sMatrixFromCoo_small T wgt c hn hm]
  exact ⟨fun _ => Iff.rfl, fun _ => Iff.rfl⟩

/-- C98: `new_csr_without_dups()` of a valid CSR whose labels and sizes fit the signed types: no execution overflows, and the
executions are the ones with the unsigned types, described by C34–C36. -/
theorem C98_without_dups_same [Inhabited W] (lw ow T : Nat) (wgt : Bool) (wlt : W → W → Prop) (c : Csr W) (hc : Spec.ValidCsr c wgt)
    (hl : ∀ u ∈ c.endpoints, u + 1 < 2 ^ (lw - 1)) (hn : c.n + 1 < 2 ^ (lw - 1)) (hm : c.m < 2 ^ (ow - 1)) (o : M (Csr W × Csr W)) :
    (sWithoutDups lw ow T wgt wlt c).Out o ↔ (withoutDups lw T wgt wlt c).Out o := by
  rw [sWithoutDups_small T wlt (isCsr_of_valid hc (default : W)) hl hn hm]

/-- C98: `new_csr_without_dups()` of a valid CSR, what it returns. -/
theorem C98_without_dups [Inhabited W] (lw ow T : Nat) (hT : 0 < T) (wgt : Bool) (wlt : W → W → Prop) (c : Csr W) (hc : Spec.ValidCsr c wgt)
    (hl : ∀ u ∈ c.endpoints, u + 1 < 2 ^ (lw - 1)) (hn : c.n + 1 < 2 ^ (lw - 1)) (hm : c.m < 2 ^ (ow - 1)) :
    (sWithoutDups lw ow T wgt wlt c).All (fun r =>
      Spec.ValidCsr r.2 wgt ∧ r.2.n = c.n ∧ r.2.nrows = c.nrows ∧ r.2.ncols = c.ncols ∧
        ∀ v, v < c.n → (Spec.row r.2 v).Pairwise (· < ·) ∧ ∀ u, u ∈ Spec.row r.2 v ↔ u ∈ Spec.row c v) := by
  rw [sWithoutDups_small T wlt (isCsr_of_valid hc (default : W)) hl hn hm]
  exact (C34_without_dups lw T hT wgt wlt c hc (fun u hu => Nat.lt_of_lt_of_le (hl u hu) (pow_pred_le lw))
    (.inr (Nat.lt_of_lt_of_le hn (pow_pred_le lw)))).mono (fun r hr => hr.1)

/-- C98: in a valid graph whose sizes fit the signed types, iterating `neighbors(v)` yields the endpoints of row `v` in order and
`degree(v)` is their number: nothing overflows. -/
theorem C98_neighbors (lw ow : Nat) (wgt : Bool) (g : Csr W) (hg : Spec.ValidCsr g wgt) (hn : g.n < 2 ^ (lw - 1)) (hm : g.m < 2 ^ (ow - 1))
    (v : Nat) (hv : v < g.n) :
    sNeighbors lw ow g v = .ok (Spec.row g v) ∧ sDegree lw g v = .ok ((Spec.row g v).length : Int) := by
  have h1 := valid_load hg (v := v) (by omega)
  have h2 := valid_load hg (v := v + 1) (by omega)
  have hm1 := hg.mono v hv
  have hm2 := valid_off_le hg (v := v + 1) (by omega)
  have hp := pow_pred_le ow
  have e : Spec.off g v + (Spec.off g (v + 1) - Spec.off g v) = Spec.off g (v + 1) := by omega
  refine ⟨?_, ?_⟩
  · rw [sNeighbors, neighborStart, h1, ok_bind, sNeighborEnd, wrapS_lt (by omega), ok_bind, h2, ok_bind, ← e,
      sIterate_ok (by rw [hg.endpoints]; exact hm) _ _ _ (by omega) (by rw [hg.endpoints]; omega), Spec.row]
  · rw [sDegree, sNeighborEnd, wrapS_lt (by omega), ok_bind, h2, ok_bind, neighborStart, h1, ok_bind, Spec.row, List.length_take,
      List.length_drop, hg.endpoints]
    congr 1
    omega

/-! ## instances -/

/-- `exFile`, an edge list, and `exGraph0`, a `.graph` file. -/
example (P : Params Unit) (h1 : P.T = 3) (h2 : P.lb = 4) (h3 : P.ob = 8) (o o' : M (DiGraph Unit)) (q : M (Matrix Unit)) :
    ((sReadDiGraph P exFile (str "g.txt") .edgeList).Out o ↔ (readDiGraph P exFile (str "g.txt") .edgeList).Out o) ∧
    ((sReadDiGraph P exGraph0 (str "a.graph") .auto).Out o' ↔ (readDiGraph P exGraph0 (str "a.graph") .auto).Out o') ∧
    ((sReadMatrix P exGraph0 (str "a.graph")).Out q ↔ (readMatrix P exGraph0 (str "a.graph")).Out q) := by
  refine ⟨C98_digraph_same P exFile _ _ .edgeList rfl (.inr (.inl rfl)) ?_ (fun h => by cases h) o,
    C98_digraph_same P exGraph0 _ _ .graph (by decide +kernel) (.inr (.inr rfl)) (by rw [h1, h2, h3]; exact exGraph0_fit) (by rw [h1, h2]; decide) o',
    C98_matrix_same P exGraph0 _ .graph (by decide +kernel) (.inr (.inr rfl)) (by rw [h1, h2, h3]; exact exGraph0_fit) (by rw [h1, h2]; decide) q⟩
  rw [h1, h2, h3]
  exact ⟨⟨1000, numbersBelow_of (by decide +kernel), by decide, by decide⟩, by decide⟩

/-- `exCsr` with `int` labels and ordinals. -/
example : (sWithoutDups 32 32 3 true (fun a b : Int => a < b) exCsr).Any ∧
    (sWithoutDups 32 32 3 true (fun a b : Int => a < b) exCsr).All (fun r => Spec.ValidCsr r.2 true ∧ r.2.n = 4) ∧
    sNeighbors 32 32 exCsr 3 = .ok [1, 0, 1] ∧ sDegree 32 exCsr 3 = .ok 3 := by
  refine ⟨?_, ?_, (C98_neighbors 32 32 true exCsr exCsr_valid (by decide) (by decide) 3 (by decide)).1,
    (C98_neighbors 32 32 true exCsr exCsr_valid (by decide) (by decide) 3 (by decide)).2⟩
  · obtain ⟨o, ho⟩ := withoutDups_any (lw := 32) (T := 3) (by omega) true intLt_strictWeak exCsr
    exact ⟨o, (C98_without_dups_same 32 32 3 true _ exCsr exCsr_valid (by decide) (by decide) (by decide) o).mpr ho⟩
  · exact (C98_without_dups 32 32 3 (by decide) true _ exCsr exCsr_valid (by decide) (by decide) (by decide)).mono (fun r hr => ⟨hr.1, hr.2.1⟩)

end Pigo
