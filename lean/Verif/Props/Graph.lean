import Verif.Lemmas.Graph
import Verif.Props.EdgeList
import Verif.Props.Csr

/-!
# Graphs, matrices, transposes and copies

C54–C57 and the value part of C70. `fromCoo` is the constructor `DiGraph(COO&)`, `readDiGraph` the constructor
`DiGraph(File&, FileType)`, `matrixFromCoo` the constructor `Matrix(COO&)`, `neighbors g v` what iterating `g.neighbors(v)`
yields; `p.All Q`: every execution of `p` succeeds without a fault and its result satisfies `Q`.
-/

namespace Pigo

variable {W : Type}

/-! ## C57: degrees and neighbours -/

theorem valid_off_le {g : Csr W} {wgt : Bool} (h : Spec.ValidCsr g wgt) {v : Nat} (hv : v ≤ g.n) : Spec.off g v ≤ g.m := by
  rw [← h.last]; exact off_le_last h.mono hv

theorem valid_load {g : Csr W} {wgt : Bool} (h : Spec.ValidCsr g wgt) {v : Nat} (hv : v ≤ g.n) :
    load g.offsets v = .ok (Spec.off g v) := by
  have hl : v < g.offsets.length := by rw [h.offsets]; omega
  rw [load_ok (List.getElem?_eq_getElem hl), Spec.off, List.getD_eq_getElem?_getD, List.getElem?_eq_getElem hl]; rfl

/-- C57: in a valid graph whose vertex count fits the label type and whose edge count fits the ordinal type, iterating
`neighbors(v)` yields the endpoints of row `v` in order, without leaving the arrays, and `degree(v)` is their number. -/
theorem C57_neighbors (lw ow : Nat) (wgt : Bool) (g : Csr W) (hg : Spec.ValidCsr g wgt) (hn : g.n < 2 ^ lw) (hm : g.m < 2 ^ ow)
    (v : Nat) (hv : v < g.n) :
    neighbors lw ow g v = .ok (Spec.row g v) ∧ degree lw ow g v = .ok (Spec.row g v).length := by
  have h0 : plusOne lw v = v + 1 := by unfold plusOne; split
                                       · rfl
                                       · exact Nat.mod_eq_of_lt (by omega)
  have h1 := valid_load hg (v := v) (by omega)
  have h2 := valid_load hg (v := v + 1) (by omega)
  have hm1 := hg.mono v hv
  have hm2 := valid_off_le hg (v := v + 1) (by omega)
  have e : Spec.off g v + (Spec.off g (v + 1) - Spec.off g v) = Spec.off g (v + 1) := by omega
  refine ⟨?_, ?_⟩
  · rw [neighbors, neighborStart, h1, ok_bind, neighborEnd, h0, h2, ok_bind, ← e,
      iterate_ok (by rw [hg.endpoints]; exact hm) _ _ _ (by omega) (by rw [hg.endpoints]; omega), Spec.row]
  · rw [degree, neighborEnd, h0, h2, ok_bind, neighborStart, h1, ok_bind, Spec.row, List.length_take,
      List.length_drop, hg.endpoints]
    congr 1
    rw [show 2 ^ ow + Spec.off g (v + 1) - Spec.off g v = (Spec.off g (v + 1) - Spec.off g v) + 2 ^ ow from by omega,
      Nat.add_mod_right, Nat.mod_eq_of_lt (by omega)]
    omega

theorem sum_rows {g : Csr W} {wgt : Bool} (h : Spec.ValidCsr g wgt) (k : Nat) (hk : k ≤ g.n) :
    (((List.range k).map (Spec.row g)).flatten = g.endpoints.take (Spec.off g k)) := by
  induction k with
  | zero => simp [h.first]
  | succ k ih =>
    rw [List.range_succ, List.map_append, List.flatten_append, ih (by omega)]
    have := h.mono k (by omega)
    simp only [List.map_cons, List.map_nil, List.flatten_cons, List.flatten_nil, List.append_nil, Spec.row]
    rw [show Spec.off g (k + 1) = Spec.off g k + (Spec.off g (k + 1) - Spec.off g k) from by omega, List.take_add]
    congr 2
    omega

/-- C57: the neighbour lists of the vertices `0, …, n-1`, one after the other, are exactly the endpoints array: every edge
belongs to one vertex. -/
theorem C57_rows_partition (wgt : Bool) (g : Csr W) (hg : Spec.ValidCsr g wgt) :
    ((List.range g.n).map (Spec.row g)).flatten = g.endpoints := by
  rw [sum_rows hg g.n (Nat.le_refl _), hg.last, ← hg.endpoints, List.take_length]

/-- C57: the degrees sum to `m`. -/
theorem C57_degree_sum (lw ow : Nat) (wgt : Bool) (g : Csr W) (hg : Spec.ValidCsr g wgt) (hn : g.n < 2 ^ lw) (hm : g.m < 2 ^ ow) :
    ∃ ds : List Nat, ds.length = g.n ∧ (∀ v, v < g.n → degree lw ow g v = .ok (ds.getD v 0)) ∧ ds.sum = g.m := by
  refine ⟨(List.range g.n).map (fun v => (Spec.row g v).length), by simp, ?_, ?_⟩
  · intro v hv
    rw [(C57_neighbors lw ow wgt g hg hn hm v hv).2]
    simp [hv]
  · have := congrArg List.length (C57_rows_partition wgt g hg)
    rw [List.length_flatten, List.map_map, hg.endpoints] at this
    exact this

/-- `exCsr` (with an empty row 2) meets the hypotheses of C57. -/
example : Spec.ValidCsr exCsr true ∧ exCsr.n < 2 ^ 3 ∧ exCsr.m < 2 ^ 3 ∧ neighbors 3 3 exCsr 3 = .ok [1, 0, 1] ∧
    degree 3 3 exCsr 2 = .ok 0 := ⟨exCsr_valid, by decide, by decide, by decide, by decide⟩

/-! ## C54: DiGraph -/

theorem fromEntries_valid {n : Nat} {c : Coo W} {wgt : Bool} {es : List (Nat × Nat × W)} {r : Csr W}
    (h : FromEntries n c wgt es r) : Spec.ValidCsr r wgt := by
  obtain ⟨_, _, _, _, _, _, h⟩ := h; exact h.valid

theorem fromEntries_count {n : Nat} {c : Coo W} {wgt : Bool} {es : List (Nat × Nat × W)} {r : Csr W}
    (h : FromEntries n c wgt es r) {u : Nat} (hu : u < n) (v : Nat) :
    (Spec.row r u).count v = es.countP (fun e => e.1 == u && e.2.1 == v) := by
  obtain ⟨_, _, _, _, es', hp, hi⟩ := h
  rw [hi.row (groupRows_get es' hu), List.map_map, List.count_eq_countP, List.countP_map, List.countP_filter, hp.countP_eq]
  apply List.countP_congr
  intro e _
  simp [and_comm]

theorem fromEntries_weights {n : Nat} {c : Coo W} {es : List (Nat × Nat × W)} {r : Csr W}
    (h : FromEntries n c true es r) {u : Nat} (hu : u < n) (v : Nat) :
    ((((Spec.row r u).zip (Spec.rowWeights r u)).filter (fun p => p.1 == v)).map Prod.snd).Perm
      ((es.filter (fun e => e.1 == u && e.2.1 == v)).map (fun e => e.2.2)) := by
  obtain ⟨_, _, _, _, es', hp, hi⟩ := h
  rw [hi.row (groupRows_get es' hu), hi.rowWeights rfl (groupRows_get es' hu), List.zip_map', List.map_id'' (by intro p; rfl),
    List.filter_map, List.map_map, List.filter_filter]
  have : (es'.filter (fun e => ((fun p : Nat × W => p.1 == v) ∘ (fun e : Nat × Nat × W => e.2)) e && e.1 == u)) =
      es'.filter (fun e => e.1 == u && e.2.1 == v) := by
    apply List.filter_congr; intro e _; simp [Bool.and_comm]
  rw [this]
  exact (hp.filter _).map _

theorem countP_swap (es : List (Nat × Nat × W)) (u v : Nat) :
    (es.map swapE).countP (fun e => e.1 == v && e.2.1 == u) = es.countP (fun e => e.1 == u && e.2.1 == v) := by
  rw [List.countP_map]
  apply List.countP_congr
  intro e _
  simp [swapE, and_comm]

theorem filter_swap (es : List (Nat × Nat × W)) (u v : Nat) :
    ((es.map swapE).filter (fun e => e.1 == v && e.2.1 == u)).map (fun e => e.2.2) =
      (es.filter (fun e => e.1 == u && e.2.1 == v)).map (fun e => e.2.2) := by
  rw [List.filter_map, List.map_map]
  have : es.filter ((fun e => e.1 == v && e.2.1 == u) ∘ swapE) = es.filter (fun e => e.1 == u && e.2.1 == v) := by
    apply List.filter_congr; intro e _; simp [swapE, Bool.and_comm]
  rw [this]
  rfl

/-- C54: for a DiGraph built from a COO whose labels are below `n`, in every execution: both graphs are valid, have the
vertices and the number of edges of the COO, and `v` is among the out-neighbours of `u` exactly as often as `u` is among the
in-neighbours of `v`, which is as often as the COO has the entry `(u, v)`. -/
theorem C54_digraph (lw ow T : Nat) (hT : 0 < T) (wgt : Bool) (c : Coo W) (es : List (Nat × Nat × W)) (hc : Holds c wgt es)
    (hlab : ∀ e ∈ es, e.1 < c.n ∧ e.2.1 < c.n) (hn : c.n < 2 ^ lw) (hm : c.m < 2 ^ ow) (hfit : Spec.OffsetsFit lw c.n) :
    (fromCoo lw ow T wgt c).All (fun g =>
      Spec.ValidCsr g.outG wgt ∧ Spec.ValidCsr g.inG wgt ∧
      g.outG.n = c.n ∧ g.inG.n = c.n ∧ g.outG.m = c.m ∧ g.inG.m = c.m ∧
      ∀ u v, u < c.n → v < c.n → ∃ outs ins, neighbors lw ow g.outG u = .ok outs ∧ neighbors lw ow g.inG v = .ok ins ∧
        outs.count v = ins.count u ∧ outs.count v = es.countP (fun e => e.1 == u && e.2.1 == v)) := by
  refine (twoGraphs_all hT hc hlab hm hfit).mono (fun g hg => ?_)
  obtain ⟨ho, hi⟩ := hg
  have vo := fromEntries_valid ho
  have vi := fromEntries_valid hi
  refine ⟨vo, vi, ho.1, hi.1, ho.2.1, hi.2.1, ?_⟩
  intro u v hu hv
  refine ⟨_, _, (C57_neighbors lw ow wgt _ vo (by rw [ho.1]; exact hn) (by rw [ho.2.1]; exact hm) u (by rw [ho.1]; exact hu)).1,
    (C57_neighbors lw ow wgt _ vi (by rw [hi.1]; exact hn) (by rw [hi.2.1]; exact hm) v (by rw [hi.1]; exact hv)).1, ?_, ?_⟩
  · rw [fromEntries_count ho hu, fromEntries_count hi hv, countP_swap]
  · exact fromEntries_count ho hu v

/-- C54 with weights: the weights of the edges from `u` to `v` in the out-graph and in the in-graph are the same multiset. -/
theorem C54_digraph_weights (lw ow T : Nat) (hT : 0 < T) (c : Coo W) (es : List (Nat × Nat × W)) (hc : Holds c true es)
    (hlab : ∀ e ∈ es, e.1 < c.n ∧ e.2.1 < c.n) (hm : c.m < 2 ^ ow) (hfit : Spec.OffsetsFit lw c.n) :
    (fromCoo lw ow T true c).All (fun g => ∀ u v, u < c.n → v < c.n →
      ((((Spec.row g.outG u).zip (Spec.rowWeights g.outG u)).filter (fun p => p.1 == v)).map Prod.snd).Perm
        ((((Spec.row g.inG v).zip (Spec.rowWeights g.inG v)).filter (fun p => p.1 == u)).map Prod.snd)) := by
  refine (twoGraphs_all hT hc hlab hm hfit).mono (fun g hg u v hu hv => ?_)
  obtain ⟨ho, hi⟩ := hg
  refine (fromEntries_weights ho hu v).trans ?_
  rw [← filter_swap]
  exact (fromEntries_weights hi hv u).symm

/-- `exCoo` (duplicate edges, a self loop, an isolated vertex) meets the hypotheses of C54; executions exist. -/
example : Holds exCoo true exCooEntries ∧ (∀ e ∈ exCooEntries, e.1 < exCoo.n ∧ e.2.1 < exCoo.n) ∧ exCoo.n < 2 ^ 3 ∧
    exCoo.m < 2 ^ 3 ∧ Spec.OffsetsFit 3 exCoo.n ∧ (fromCoo 3 3 4 true exCoo).Any :=
  ⟨exCoo_holds, by decide, by decide, by decide, .inl (by decide), fromCoo_any (by omega) true exCoo⟩

theorem fun_eq_countP (es : List (Nat × Nat)) (u v : Nat) :
    (es.map unw).countP (fun e => e.1 == u && e.2.1 == v) = es.count (u, v) := by
  rw [List.countP_map, List.count_eq_countP]
  apply List.countP_congr
  rintro ⟨a, b⟩ _
  simp [unw]

/-- C54 from the file: the DiGraph of an edge list file has `v` among the out-neighbours of `u`, and `u` among the
in-neighbours of `v`, as often as the file has a line `u v`. -/
theorem C54_digraph_file (P : Params Unit) (hwk : P.wk = wNone) (hT : 0 < P.T) (hlb : 0 < P.lb) (μ : Mapping) (hpad : 0 < μ.pad)
    (fn : List Byte) (hok : Spec.EdgeListOk μ.bytes)
    (hlab : ∀ e ∈ Spec.edges μ.bytes, e.1 + 1 < 2 ^ (8 * P.lb) ∧ e.2 + 1 < 2 ^ (8 * P.lb))
    (hfit : 8 * P.lb < 32 ∨ ∀ e ∈ Spec.edges μ.bytes, e.1 + 2 < 2 ^ (8 * P.lb) ∧ e.2 + 2 < 2 ^ (8 * P.lb))
    (hm : (Spec.edges μ.bytes).length < 2 ^ (8 * P.ob)) :
    (readDiGraph P μ fn .edgeList).All (fun g =>
      g.outG.m = (Spec.edges μ.bytes).length ∧ g.inG.m = (Spec.edges μ.bytes).length ∧ g.inG.n = g.outG.n ∧
      (∀ e ∈ Spec.edges μ.bytes, e.1 < g.outG.n ∧ e.2 < g.outG.n) ∧
      ∀ u v, u < g.outG.n → v < g.outG.n →
        ∃ outs ins, neighbors (8 * P.lb) (8 * P.ob) g.outG u = .ok outs ∧ neighbors (8 * P.lb) (8 * P.ob) g.inG v = .ok ins ∧
          outs.count v = (Spec.edges μ.bytes).count (u, v) ∧ ins.count u = (Spec.edges μ.bytes).count (u, v)) := by
  unfold readDiGraph
  refine R.All.bind (P := fun t => t = FileType.edgeList) (R.All.lift (a := FileType.edgeList) rfl rfl) ?_
  rintro t rfl
  rw [if_neg (by decide)]
  refine R.All.bind (P := fun c : Coo Unit => Holds c false ((Spec.edges μ.bytes).map unw) ∧
      (∀ a ∈ c.x, a < c.n) ∧ (∀ a ∈ c.y, a < c.n) ∧ c.n < 2 ^ (8 * P.lb) ∧ Spec.OffsetsFit (8 * P.lb) c.n) ?_ ?_
  · unfold readCoo
    refine R.All.bind (P := fun t => t = FileType.edgeList) (R.All.lift (a := FileType.edgeList) rfl rfl) ?_
    rintro t rfl
    rw [if_pos (by decide)]
    refine R.All.bind (P := fun p : Coo Unit × Nat => Holds p.1 false ((Spec.edges μ.bytes).map unw) ∧
      (∀ a ∈ p.1.x, a < p.1.n) ∧ (∀ a ∈ p.1.y, a < p.1.n) ∧ p.1.n < 2 ^ (8 * P.lb) ∧ Spec.OffsetsFit (8 * P.lb) p.1.n) ?_ (fun p hp => R.All.pure hp)
    unfold readCooFmt
    rw [if_neg (by decide), if_pos rfl]
    refine R.All.bind (P := fun c : Coo Unit => Holds c false ((Spec.edges μ.bytes).map unw) ∧
      (∀ a ∈ c.x, a < c.n) ∧ (∀ a ∈ c.y, a < c.n) ∧ c.n < 2 ^ (8 * P.lb) ∧ Spec.OffsetsFit (8 * P.lb) c.n) ?_ (fun p hp => R.All.pure hp)
    intro out hout
    have hrun : LoadEdgeList μ (8 * P.lb) (8 * P.ob) {} wNone P.T out := by
      rw [← hwk]; exact hout
    have hl8 : 0 < 8 * P.lb := by omega
    obtain ⟨c, rfl, hx, hy, hcm⟩ := C08_edge_list_entries μ hpad _ _ _ hT hok (fun e he => by have := hlab e he; omega) hm out hrun
    obtain ⟨c', hc', hnr, hnc, hn, hbx, hby⟩ := C10_dimensions μ hpad _ _ _ hT hl8 hok {} (Or.inl rfl) hlab
      (by rw [storedAll_plain]; simpa using hm) _ hrun
    injection hc' with hc'
    subst hc'
    refine ⟨c, rfl, ⟨by rw [hcm, List.length_map], by rw [hx, List.map_map]; rfl, by rw [hy, List.map_map]; rfl, by simp⟩, hbx, hby, ?_⟩
    have hmax : ∀ (k : Nat) (l : List Nat), k < 2 ^ (8 * P.lb) → (∀ a ∈ l, a + k < 2 ^ (8 * P.lb)) → Spec.maxOf l + k < 2 ^ (8 * P.lb) := by
      intro k l h0 hl
      have : Spec.maxOf l = 0 ∨ Spec.maxOf l ∈ l := by
        unfold Spec.maxOf
        clear hl
        suffices h : ∀ (l : List Nat) a, l.foldl max a = a ∨ l.foldl max a ∈ l from h l 0
        intro l
        induction l with
        | nil => intro a; exact Or.inl rfl
        | cons b l ih =>
          intro a
          rw [List.foldl_cons]
          rcases ih (max a b) with h | h
          · rw [h]
            rcases Nat.le_total a b with h' | h'
            · right; rw [Nat.max_eq_right h']; simp
            · left; exact Nat.max_eq_left h'
          · right; exact List.mem_cons_of_mem _ h
      rcases this with h | h
      · rw [h, Nat.zero_add]; exact h0
      · exact hl _ h
    have hcx : ∀ k, (∀ e ∈ Spec.edges μ.bytes, e.1 + k < 2 ^ (8 * P.lb) ∧ e.2 + k < 2 ^ (8 * P.lb)) →
        (∀ a ∈ c.x, a + k < 2 ^ (8 * P.lb)) ∧ ∀ a ∈ c.y, a + k < 2 ^ (8 * P.lb) := by
      intro k hk
      refine ⟨fun a ha => ?_, fun a ha => ?_⟩
      · rw [hx] at ha
        obtain ⟨e, he, rfl⟩ := List.mem_map.mp ha
        exact (hk e he).1
      · rw [hy] at ha
        obtain ⟨e, he, rfl⟩ := List.mem_map.mp ha
        exact (hk e he).2
    have h256 : 2 ^ 8 ≤ 2 ^ (8 * P.lb) := Nat.pow_le_pow_right (by omega) (by omega)
    rw [hn, hnr, hnc]
    refine ⟨?_, ?_⟩
    · have h1 := hmax 1 c.x (by omega) (hcx 1 hlab).1
      have h2 := hmax 1 c.y (by omega) (hcx 1 hlab).2
      omega
    · rcases hfit with hfit | hfit
      · exact .inl hfit
      · have h1 := hmax 2 c.x (by omega) (hcx 2 hfit).1
        have h2 := hmax 2 c.y (by omega) (hcx 2 hfit).2
        exact .inr (by omega)
  · rintro c ⟨hc, hbx, hby, hcn, hcf⟩
    rw [hwk]
    have hl : ∀ e ∈ (Spec.edges μ.bytes).map unw, e.1 < c.n ∧ e.2.1 < c.n := by
      intro e he
      refine ⟨hbx _ ?_, hby _ ?_⟩
      · rw [hc.x]; exact List.mem_map_of_mem he
      · rw [hc.y]; exact List.mem_map_of_mem he
    have hcm : c.m = (Spec.edges μ.bytes).length := by rw [hc.m, List.length_map]
    refine (C54_digraph (8 * P.lb) (8 * P.ob) P.T hT false c _ hc hl hcn (by rw [hcm]; exact hm) hcf).mono (fun g hg => ?_)
    obtain ⟨_, _, h1, h2, h3, h4, h5⟩ := hg
    refine ⟨by rw [h3, hcm], by rw [h4, hcm], by rw [h1, h2], ?_, ?_⟩
    · intro e he
      rw [h1]
      exact hl (unw e) (List.mem_map_of_mem he)
    · intro u v hu hv
      rw [h1] at hu hv
      obtain ⟨o, i, ho, hi, e1, e2⟩ := h5 u v hu hv
      rw [fun_eq_countP] at e2
      exact ⟨o, i, ho, hi, e2, e1 ▸ e2⟩

/-- The example file of the edge list properties meets the hypotheses, with 16-bit labels and 8-bit counts. -/
example : 0 < exFile.pad ∧ Spec.EdgeListOk exFile.bytes ∧
    (∀ e ∈ Spec.edges exFile.bytes, e.1 + 1 < 2 ^ (8 * 2) ∧ e.2 + 1 < 2 ^ (8 * 2)) ∧
    (Spec.edges exFile.bytes).length < 2 ^ (8 * 1) := by
  refine ⟨by decide, exFile_ok, ?_, ?_⟩ <;> rw [exFile_edges] <;> decide

/-! ## C56: Matrix -/

/-- C56: for a Matrix built from a COO: the entry `(i, j)` occurs in row `i` of `csr()` as often as `i` occurs in column `j`
of `csc()`, and as often as in the COO; `nrows()` and `ncols()` are those of the COO. -/
theorem C56_matrix (lw ow T : Nat) (hT : 0 < T) (wgt : Bool) (c : Coo W) (es : List (Nat × Nat × W)) (hc : Holds c wgt es)
    (hlab : ∀ e ∈ es, e.1 < c.n ∧ e.2.1 < c.n) (hm : c.m < 2 ^ ow) (hfit : Spec.OffsetsFit lw c.n) :
    (matrixFromCoo lw ow T wgt c).All (fun a => Spec.ValidCsr a.csr wgt ∧ Spec.ValidCsr a.csc wgt ∧
      a.csr.n = c.n ∧ a.csc.n = c.n ∧ a.csr.m = c.m ∧ a.csc.m = c.m ∧ a.nrows = c.nrows ∧ a.ncols = c.ncols ∧
      ∀ i j, i < c.n → j < c.n → (Spec.row a.csr i).count j = (Spec.row a.csc j).count i ∧
        (Spec.row a.csr i).count j = es.countP (fun e => e.1 == i && e.2.1 == j)) := by
  have := matrixFromCoo_eq (Q := fun o i => FromEntries c.n c wgt es o ∧ FromEntries c.n c wgt (es.map swapE) i)
    (twoGraphs_all hT hc hlab hm hfit)
  refine this.mono (fun a ha => ?_)
  obtain ⟨ho, hi⟩ := ha
  refine ⟨fromEntries_valid ho, fromEntries_valid hi, ho.1, hi.1, ho.2.1, hi.2.1, ho.2.2.1, ho.2.2.2.1, ?_⟩
  intro i j hi' hj
  have e1 := fromEntries_count ho hi' j
  exact ⟨by rw [e1, fromEntries_count hi hj, countP_swap], e1⟩

/-- C56 with weights: the values of the entries `(i, j)` in `csr()` and `csc()` are the same multiset. -/
theorem C56_matrix_weights (lw ow T : Nat) (hT : 0 < T) (c : Coo W) (es : List (Nat × Nat × W)) (hc : Holds c true es)
    (hlab : ∀ e ∈ es, e.1 < c.n ∧ e.2.1 < c.n) (hm : c.m < 2 ^ ow) (hfit : Spec.OffsetsFit lw c.n) :
    (matrixFromCoo lw ow T true c).All (fun a => ∀ i j, i < c.n → j < c.n →
      ((((Spec.row a.csr i).zip (Spec.rowWeights a.csr i)).filter (fun p => p.1 == j)).map Prod.snd).Perm
        ((((Spec.row a.csc j).zip (Spec.rowWeights a.csc j)).filter (fun p => p.1 == i)).map Prod.snd)) :=
  matrixFromCoo_eq (Q := fun o i' => ∀ i j, i < c.n → j < c.n →
      ((((Spec.row o i).zip (Spec.rowWeights o i)).filter (fun p => p.1 == j)).map Prod.snd).Perm
        ((((Spec.row i' j).zip (Spec.rowWeights i' j)).filter (fun p => p.1 == i)).map Prod.snd))
    (C54_digraph_weights lw ow T hT c es hc hlab hm hfit)

example : Holds exCoo true exCooEntries ∧ (∀ e ∈ exCooEntries, e.1 < exCoo.n ∧ e.2.1 < exCoo.n) ∧ exCoo.m < 2 ^ 32 ∧
    Spec.OffsetsFit 32 exCoo.n :=
  ⟨exCoo_holds, by decide, by decide, .inr (by decide)⟩

/-! ## C55: transpose -/

/-- C55 (partial): `transpose` exchanges `x` and `y` of every entry, keeps the weights, `n` and `m`, and applied twice it is
the identity. Missing: the row and column counts are not exchanged, see `C55_dims_violated`. -/
theorem C55_transpose_partial (wgt : Bool) (c : Coo W) (es : List (Nat × Nat × W)) (hc : Holds c wgt es) :
    Holds (transposeCoo c) wgt (es.map (fun e => (e.2.1, e.1, e.2.2))) ∧ (transposeCoo c).n = c.n ∧ (transposeCoo c).m = c.m ∧
      transposeCoo (transposeCoo c) = c :=
  ⟨transpose_holds hc, rfl, rfl, rfl⟩

example : (transposeCoo exCoo).x = [1, 3, 0, 1, 3, 1] ∧ (transposeCoo exCoo).y = [2, 0, 2, 1, 0, 2] := ⟨rfl, rfl⟩

/-- C55 is violated: whenever the row and column counts differ, `transpose` leaves them as they were, so they are not those
of the transposed matrix. -/
theorem C55_dims_violated (c : Coo W) (h : c.nrows ≠ c.ncols) :
    (transposeCoo c).nrows ≠ c.ncols ∧ (transposeCoo c).ncols ≠ c.nrows :=
  ⟨h, fun e => h e.symm⟩

/-- Such a COO: `exCoo` has 3 rows and 4 columns; after `transpose`, `nrows()` is 3 although an entry is in row 3. -/
example : exCoo.nrows ≠ exCoo.ncols ∧ (transposeCoo exCoo).nrows = 3 ∧ 3 ∈ (transposeCoo exCoo).x := by decide

/-- C55, consequence for Matrix (matrix.hpp 128–156): the `csc()` of a matrix has the row count of the matrix as its own
`nrows()`, although its rows are the columns of the matrix. -/
theorem C55_csc_dims_violated (lw ow T : Nat) (hT : 0 < T) (wgt : Bool) (c : Coo W) (es : List (Nat × Nat × W)) (hc : Holds c wgt es)
    (hlab : ∀ e ∈ es, e.1 < c.n ∧ e.2.1 < c.n) (hm : c.m < 2 ^ ow) (hfit : Spec.OffsetsFit lw c.n) (h : c.nrows ≠ c.ncols) :
    (matrixFromCoo lw ow T wgt c).All (fun a => a.csc.nrows = a.nrows ∧ a.csc.nrows ≠ a.ncols) := by
  have := matrixFromCoo_eq (Q := fun o i => FromEntries c.n c wgt es o ∧ FromEntries c.n c wgt (es.map swapE) i)
    (twoGraphs_all hT hc hlab hm hfit)
  refine this.mono (fun a ha => ?_)
  obtain ⟨ho, hi⟩ := ha
  unfold Matrix.nrows Matrix.ncols
  rw [ho.2.2.1, ho.2.2.2.1, hi.2.2.1]
  exact ⟨rfl, h⟩

/-! ## C70: copies (values; independence of the memory is in `Props/Lifecycle`) -/

/-- C70: the copy of a COO is equal to it: the same sizes and dimensions, the same entries in the same order, the same
weights; in every execution, whatever the fresh memory contained. -/
theorem C70_copy_coo (T : Nat) (wgt : Bool) (c : Coo W) (hx : c.x.length = c.m) (hy : c.y.length = c.m)
    (hw : if wgt then c.w.length = c.m else c.w = []) :
    (copyCoo T wgt c).All (fun r => r = c) := by
  refine (copyCoo_all (T := T) (wgt := wgt) hx hy (fun h => by subst h; simpa using hw)).mono (fun r hr => ?_)
  rw [hr]
  cases wgt with
  | true => rfl
  | false => simp only [Bool.false_eq_true, if_false] at hw ⊢; rw [← hw]

/-- C70: the copy of a Tensor is equal to it. -/
theorem C70_copy_tensor (ow T : Nat) (wgt : Bool) (t : Tensor W) (hc : t.c.length = t.order * t.m) (hb : t.order * t.m < 2 ^ ow)
    (hw : if wgt then t.w.length = t.m else t.w = []) :
    (copyTensor ow T wgt t).All (fun r => r = t) := by
  refine (copyTensor_all (T := T) (wgt := wgt) (ow := ow) (by rw [hc, tensorLen, inOrd_lt hb]) (by rw [tensorLen, inOrd_lt hb]; exact hb)
    (fun h => by subst h; simpa using hw)).mono (fun r hr => ?_)
  rw [hr]
  cases wgt with
  | true => rfl
  | false => simp only [Bool.false_eq_true, if_false] at hw ⊢; rw [← hw]

example : exCoo.x.length = exCoo.m ∧ exCoo.y.length = exCoo.m ∧ exCoo.w.length = exCoo.m ∧ (copyCoo 3 true exCoo).Any :=
  ⟨by decide, by decide, by decide, copyCoo_any (by omega) true exCoo⟩

/-- A tensor of order 3 with 2 entries. -/
example : ({ c := [1, 2, 3, 4, 5, 6], w := [1.5, 2], order := 3, m := 2 } : Tensor Float).c.length = 3 * 2 ∧ 3 * 2 < 2 ^ 8 :=
  ⟨by decide, by decide⟩

end Pigo
