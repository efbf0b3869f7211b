import Verif.Lemmas.CsrDedup

/-!
# Properties of the COO/CSR conversions

C24–C31 and C68.  `convertCoo` is the constructor `CSR(COO&)`, `convertCsr` the constructor `COO(CSR&)`;
`p.All Q` says: every execution of `p` (any assignment of iterations to threads, any interleaving, any content
of uninitialised memory) succeeds without a fault and its result satisfies `Q`.
-/

namespace Pigo

variable {W : Type}

theorem groupRows_get {n v : Nat} (es : List (Nat × Nat × W)) (hv : v < n) :
    (groupRows n es)[v]? = some ((es.filter (fun e => e.1 == v)).map (fun e => e.2)) := by
  simp [groupRows, hv]

/-- C24: converting a COO whose labels are below `n` gives valid CSR arrays with the sizes of the COO, and
`offsets[v+1] - offsets[v]` is the number of entries with `x == v`; in every execution, with any number of
threads. -/
theorem C24_valid_csr (lw ow T : Nat) (hT : 0 < T) (wgt : Bool) (c : Coo W) (es : List (Nat × Nat × W)) (hc : Holds c wgt es)
    (hlab : ∀ e ∈ es, e.1 < c.n) (hm : c.m < 2 ^ ow) (hn : Spec.OffsetsFit lw c.n) :
    (convertCoo lw ow T wgt c).All (fun r =>
      Spec.ValidCsr r wgt ∧ r.n = c.n ∧ r.m = c.m ∧ r.nrows = c.nrows ∧ r.ncols = c.ncols ∧
      ∀ v, v < c.n → Spec.off r (v + 1) - Spec.off r v = (es.filter (fun e => e.1 == v)).length) := by
  refine (convertCoo_all hT hc hlab hm hn).mono (fun r hr => ?_)
  obtain ⟨hm', hnr, hnc, es', hp, _, hcsr⟩ := hr
  refine ⟨hcsr.valid, by rw [hcsr.n]; simp [groupRows], hm', hnr, hnc, ?_⟩
  · intro v hv
    rw [hcsr.off_succ (groupRows_get es' hv), Nat.add_sub_cancel_left, List.length_map]
    exact (hp.filter _).length_eq

/-- C25: row `v` of the converted CSR holds exactly the `y` of the entries with `x == v` (as a multiset), for
every schedule and every content of the freshly allocated arrays: every slot is written, in bounds, and since
there are `m` stores for `m` slots, exactly once. -/
theorem C25_rows (lw ow T : Nat) (hT : 0 < T) (wgt : Bool) (c : Coo W) (es : List (Nat × Nat × W)) (hc : Holds c wgt es)
    (hlab : ∀ e ∈ es, e.1 < c.n) (hm : c.m < 2 ^ ow) (hn : Spec.OffsetsFit lw c.n) :
    (convertCoo lw ow T wgt c).All (fun r => r.endpoints.length = c.m ∧
      ∀ v, v < c.n → (Spec.row r v).Perm ((es.filter (fun e => e.1 == v)).map (fun e => e.2.1))) := by
  refine (R.All.mono (P := fun r => (∃ es' : List (Nat × Nat × W), es'.Perm es ∧ IsCsr r wgt (groupRows c.n es')) ∧ r.endpoints.length = c.m)
    ?_ (fun r hr => ?_))
  · intro o ho
    obtain ⟨r, rfl, _, _, _, es', hp, _, h3⟩ := convertCoo_all hT hc hlab hm hn o ho
    obtain ⟨r', hr', h4, h5, h6, _⟩ := C24_valid_csr lw ow T hT wgt c es hc hlab hm hn _ ho
    injection hr' with hr'
    subst hr'
    exact ⟨r, rfl, ⟨es', hp, h3⟩, by rw [h4.endpoints, h6]⟩
  · obtain ⟨⟨es', hp, hcsr⟩, hl⟩ := hr
    refine ⟨hl, fun v hv => ?_⟩
    rw [hcsr.row (groupRows_get es' hv), List.map_map]
    exact (hp.filter _).map _

/-- C25 for weighted COOs: the (endpoint, weight) pairs of row `v` are those of the entries with `x == v`. -/
theorem C25_rows_weighted (lw ow T : Nat) (hT : 0 < T) (c : Coo W) (es : List (Nat × Nat × W)) (hc : Holds c true es)
    (hlab : ∀ e ∈ es, e.1 < c.n) (hm : c.m < 2 ^ ow) (hn : Spec.OffsetsFit lw c.n) :
    (convertCoo lw ow T true c).All (fun r =>
      ∀ v, v < c.n → ((Spec.row r v).zip (Spec.rowWeights r v)).Perm ((es.filter (fun e => e.1 == v)).map (fun e => e.2))) := by
  refine (convertCoo_all hT hc hlab hm hn).mono (fun r hr => ?_)
  obtain ⟨_, _, _, es', hp, _, hcsr⟩ := hr
  intro v hv
  rw [hcsr.row (groupRows_get es' hv), hcsr.rowWeights rfl (groupRows_get es' hv), List.zip_map', List.map_id'' (by intro p; rfl)]
  exact (hp.filter _).map _

/-- C26: with one thread the conversion is stable: row `v` lists the `y` (and the weights) of the entries
with `x == v` in the order of the COO. -/
theorem C26_sequential_stable (lw ow : Nat) (wgt : Bool) (c : Coo W) (es : List (Nat × Nat × W)) (hc : Holds c wgt es)
    (hlab : ∀ e ∈ es, e.1 < c.n) (hm : c.m < 2 ^ ow) (hn : Spec.OffsetsFit lw c.n) :
    (convertCoo lw ow 1 wgt c).All (fun r =>
      ∀ v, v < c.n → Spec.row r v = (es.filter (fun e => e.1 == v)).map (fun e => e.2.1) ∧
        (wgt = true → Spec.rowWeights r v = (es.filter (fun e => e.1 == v)).map (fun e => e.2.2))) := by
  refine (convertCoo_all (by omega) hc hlab hm hn).mono (fun r hr => ?_)
  obtain ⟨_, _, _, es', _, h1, hcsr⟩ := hr
  have := h1 rfl
  subst this
  intro v hv
  refine ⟨?_, fun hw => ?_⟩
  · rw [hcsr.row (groupRows_get es' hv), List.map_map]; rfl
  · rw [hcsr.rowWeights hw (groupRows_get es' hv), List.map_map]; rfl

/-- A COO for the examples: rows 2, 0, 2, 1 with weights, a duplicate and an empty row 3. -/
def exCoo : Coo Int :=
  { x := [2, 0, 2, 1, 0, 2], y := [1, 3, 0, 1, 3, 1], w := [5, -1, 7, 0, 2, 4], n := 4, m := 6, nrows := 3, ncols := 4 }

def exCooEntries : List (Nat × Nat × Int) := [(2, 1, 5), (0, 3, -1), (2, 0, 7), (1, 1, 0), (0, 3, 2), (2, 1, 4)]

theorem exCoo_holds : Holds exCoo true exCooEntries := ⟨by decide, by decide, by decide, fun _ => by decide⟩

/-- The hypotheses of C24–C26 are met by `exCoo`, and executions exist (here with 8 threads). -/
example : (∀ e ∈ exCooEntries, e.1 < exCoo.n) ∧ exCoo.m < 2 ^ 32 ∧ Spec.OffsetsFit 32 exCoo.n ∧ (convertCoo 32 32 8 true exCoo).Any :=
  ⟨by decide, by decide, .inr (by decide), convertCoo_any (by omega) true exCoo⟩

/-! ## CSR to COO -/

theorem IsCsr.getD_row {c : Csr W} {wgt : Bool} {rows : List (List (Nat × W))} (h : IsCsr c wgt rows) {v : Nat} (hv : v < c.n) :
    rows[v]? = some (rows.getD v []) := getD_some (by rw [← h.n]; exact hv)

theorem csrEntries_xy {c : Csr W} {wgt : Bool} {rows : List (List (Nat × W))} (h : IsCsr c wgt rows) (cfg : Cfg) :
    (csrEntries cfg rows).map (fun e => (e.1, e.2.1)) = (Spec.pairs c).flatMap (fun p => csrEntry cfg p.1 p.2) := by
  rw [csrEntries, map_flatMap', Spec.pairs, List.flatMap_assoc, ← h.n]
  apply flatMap_congr'
  intro v hv
  rw [h.row (h.getD_row (List.mem_range.mp hv)), map_flatMap', List.map_map, List.flatMap_map]
  apply flatMap_congr'
  intro p _
  rw [csrEntryW, List.map_map]
  exact List.map_id'' (fun q => rfl) _

theorem csrEntries_triples {c : Csr W} {rows : List (List (Nat × W))} (h : IsCsr c true rows) (cfg : Cfg) :
    csrEntries cfg rows = (Spec.triples c).flatMap (fun t => (csrEntry cfg t.1 t.2.1).map (fun q => (q.1, q.2, t.2.2))) := by
  rw [csrEntries, Spec.triples, List.flatMap_assoc, ← h.n]
  apply flatMap_congr'
  intro v hv
  have hr := h.getD_row (List.mem_range.mp hv)
  rw [h.row hr, h.rowWeights rfl hr, List.zip_map', List.flatMap_map, List.flatMap_map]
  rfl

theorem csrEntry_plain (v u : Nat) : csrEntry {} v u = [(v, u)] := rfl

theorem holds_xy {c : Coo W} {wgt : Bool} {es : List (Nat × Nat × W)} (h : Holds c wgt es) :
    c.x.zip c.y = es.map (fun e => (e.1, e.2.1)) ∧ c.x.length = c.m ∧ c.y.length = c.m := by
  rw [h.x, h.y, h.m, List.zip_map']
  simp

/-- C27: converting a CSR without flags gives a COO with the same `n` and `m` whose entries are those of the
CSR, in order: the `i`-th entry is (row of `i`, endpoint `i`). -/
theorem C27_csr_to_coo [Inhabited W] (ow T : Nat) (stor : Storage) (wgt : Bool) (c : Csr W) (hc : Spec.ValidCsr c wgt)
    (hs : wgt = true → stor ≠ .vector) (hm : c.m < 2 ^ ow) :
    (convertCsr ow T stor {} wgt c).All (fun r => r.n = c.n ∧ r.m = c.m ∧ r.x.length = c.m ∧ r.y = c.endpoints ∧
      (wgt = true → r.w = c.weights) ∧
      ∀ v i, v < c.n → Spec.off c v ≤ i → i < Spec.off c (v + 1) → r.x[i]? = some v) := by
  have hi := isCsr_of_valid hc (default : W)
  refine (convertCsr_all (T := T) (ow := ow) (cfg := {}) hi hs rfl (by simp) (by simpa [csrFactor] using hm)).mono (fun r hr => ?_)
  obtain ⟨hn, hh⟩ := hr
  have hxy := csrEntries_xy hi {}
  have e : (Spec.pairs c).flatMap (fun p => csrEntry {} p.1 p.2) = Spec.pairs c := by
    simp [csrEntry_plain, List.flatMap_singleton']
  rw [e] at hxy
  have hx : r.x = (Spec.pairs c).map Prod.fst := by rw [hh.x, ← hxy, List.map_map]; rfl
  have hy : r.y = (Spec.pairs c).map Prod.snd := by rw [hh.y, ← hxy, List.map_map]; rfl
  have hpy : (Spec.pairs c).map Prod.snd = c.endpoints := by
    rw [Spec.pairs, map_flatMap', hi.endpoints, List.flatMap_def, List.map_flatten, ← map_range_getD, ← hi.n]
    congr 1
    apply List.map_congr_left
    intro v hv
    rw [hi.row (hi.getD_row (List.mem_range.mp hv)), List.map_map, List.map_map]; rfl
  have hlen : (csrEntries {} (rowsOfCsr wgt default c)).length = c.m := by
    rw [← hc.endpoints, ← hpy, ← hxy]; simp
  refine ⟨hn, by rw [hh.m, hlen], by rw [hh.x, List.length_map, hlen], by rw [hy, hpy], ?_, ?_⟩
  · intro hw
    subst hw
    rw [hh.w rfl, csrEntries, map_flatMap', hi.weights rfl, List.flatMap_def, List.map_flatten, ← map_range_getD]
    congr 1
    apply List.map_congr_left
    intro v _
    rw [map_flatMap']
    induction (rowsOfCsr true default c).getD v [] with
    | nil => rfl
    | cons a l ih => rw [List.flatMap_cons, ih]; rfl
  · intro v i hv h1 h2
    rw [hx, Spec.pairs, map_flatMap']
    have e2 : (List.range c.n).flatMap (fun v => ((Spec.row c v).map (fun u => (v, u))).map Prod.fst) =
        (List.range c.n).flatMap (fun v => List.replicate (Spec.off c (v + 1) - Spec.off c v) v) := by
      apply flatMap_congr'
      intro v hv
      have hv' := List.mem_range.mp hv
      have h3 : (Spec.row c v).length = Spec.off c (v + 1) - Spec.off c v := by
        rw [Spec.row, List.length_take, List.length_drop, hc.endpoints]
        have := off_le_last hc.mono (show v + 1 ≤ c.n by omega)
        rw [hc.last] at this
        have := hc.mono v hv'
        omega
      rw [List.map_map, ← h3]
      show List.map (fun _ => v) _ = _
      rw [List.map_const']
    rw [e2]
    have key : ∀ n, (∀ v, v < n → Spec.off c v ≤ Spec.off c (v + 1)) →
        ((List.range n).flatMap (fun v => List.replicate (Spec.off c (v + 1) - Spec.off c v) v)).length = Spec.off c n := by
      intro n
      induction n with
      | zero => intro _; simpa using hc.first.symm
      | succ n ih =>
        intro h
        rw [List.range_succ, List.flatMap_append, List.length_append, ih (fun v hv => h v (by omega))]
        have := h n (by omega)
        simp only [List.flatMap_singleton, List.length_replicate]
        omega
    have hsplit : List.range c.n = List.range v ++ (v :: (List.range' (v + 1) (c.n - (v + 1)))) := by
      conv => lhs; rw [show c.n = v + (1 + (c.n - (v + 1))) by omega]
      rw [List.range_eq_range', List.range_eq_range', ← List.range'_append_1, Nat.add_comm 1, List.range'_succ]
      simp
    have hk := key v (fun u hu => hc.mono u (by omega))
    rw [hsplit, List.flatMap_append, List.flatMap_cons, List.getElem?_append_right (by rw [hk]; exact h1), hk,
      List.getElem?_append_left (by rw [List.length_replicate]; omega), List.getElem?_replicate, if_pos (by omega)]

/-- C28: with `symmetric` each CSR entry (v, u) is stored mirrored and as it is; with `symmetric` and `upper
triangle` it is stored as (min, max). -/
theorem C28_symmetric [Inhabited W] (ow T : Nat) (stor : Storage) (cfg : Cfg) (hsym : cfg.sym = true) (hsl : cfg.sl = false) (wgt : Bool)
    (c : Csr W) (hc : Spec.ValidCsr c wgt) (hs : wgt = true → stor ≠ .vector) (hm : 2 * c.m < 2 ^ ow) :
    (convertCsr ow T stor cfg wgt c).All (fun r => r.n = c.n ∧ r.x.length = r.m ∧ r.y.length = r.m ∧
      r.x.zip r.y = (Spec.pairs c).flatMap (fun p =>
        if cfg.ut then [(min p.1 p.2, max p.1 p.2)] else [(p.2, p.1), (p.1, p.2)])) := by
  have hi := isCsr_of_valid hc (default : W)
  have hf : csrFactor cfg * c.m < 2 ^ ow := by
    unfold csrFactor; split <;> omega
  refine (convertCsr_all (T := T) (ow := ow) hi hs hsl (fun _ => hsym) hf).mono (fun r hr => ?_)
  obtain ⟨hn, hh⟩ := hr
  obtain ⟨h1, h2, h3⟩ := holds_xy hh
  refine ⟨hn, h2, h3, ?_⟩
  rw [h1, csrEntries_xy hi cfg]
  apply flatMap_congr'
  intro p _
  unfold csrEntry
  rw [hsym]
  cases cfg.ut with
  | true =>
    simp only [Bool.and_self, if_true]
    by_cases h : p.1 > p.2
    · rw [if_pos h, Nat.min_eq_right (Nat.le_of_lt h), Nat.max_eq_left (Nat.le_of_lt h)]
    · rw [if_neg h, Nat.min_eq_left (by omega), Nat.max_eq_right (by omega)]
  | false => simp

/-- C28 with weights: both entries carry the weight of the CSR entry. -/
theorem C28_symmetric_weighted [Inhabited W] (ow T : Nat) (stor : Storage) (cfg : Cfg) (hsym : cfg.sym = true) (hsl : cfg.sl = false)
    (c : Csr W) (hc : Spec.ValidCsr c true) (hs : stor ≠ .vector) (hm : 2 * c.m < 2 ^ ow) :
    (convertCsr ow T stor cfg true c).All (fun r => Holds r true ((Spec.triples c).flatMap (fun t =>
        if cfg.ut then [(min t.1 t.2.1, max t.1 t.2.1, t.2.2)] else [(t.2.1, t.1, t.2.2), (t.1, t.2.1, t.2.2)]))) := by
  have hi := isCsr_of_valid hc (default : W)
  have hf : csrFactor cfg * c.m < 2 ^ ow := by
    unfold csrFactor; split <;> omega
  refine (convertCsr_all (T := T) (ow := ow) hi (fun _ => hs) hsl (fun _ => hsym) hf).mono (fun r hr => ?_)
  obtain ⟨hn, hh⟩ := hr
  rw [csrEntries_triples hi cfg] at hh
  have e : (Spec.triples c).flatMap (fun t => (csrEntry cfg t.1 t.2.1).map (fun q => (q.1, q.2, t.2.2))) =
      (Spec.triples c).flatMap (fun t =>
        if cfg.ut then [(min t.1 t.2.1, max t.1 t.2.1, t.2.2)] else [(t.2.1, t.1, t.2.2), (t.1, t.2.1, t.2.2)]) := by
    apply flatMap_congr'
    intro p _
    unfold csrEntry
    rw [hsym]
    cases cfg.ut with
    | true =>
      simp only [Bool.and_self, if_true]
      by_cases h : p.1 > p.2.1
      · rw [if_pos h, Nat.min_eq_right (Nat.le_of_lt h), Nat.max_eq_left (Nat.le_of_lt h)]; rfl
      · rw [if_neg h, Nat.min_eq_left (by omega), Nat.max_eq_right (by omega)]; rfl
    | false => simp
  rwa [e] at hh

/-- C28: the other flag combinations throw `NotYetImplemented`, for every CSR. -/
theorem C28_not_yet_implemented (ow T : Nat) (stor : Storage) (cfg : Cfg)
    (h : cfg.sl = true ∨ (cfg.ut = true ∧ cfg.sym = false)) (wgt : Bool) (c : Csr W) (out : M (Coo W)) :
    (convertCsr ow T stor cfg wgt c).Out out → out = .error .nyi := by
  rintro ⟨_, ⟨nr, _, rfl⟩, _, ⟨nc, _, rfl⟩, _, rfl, h3⟩
  rcases cfg with ⟨s, u, l⟩
  cases s <;> cases u <;> cases l <;> simp_all <;> exact h3

/-- A CSR for the examples: rows [3, 3], [1], [], [0, 1, 1], weighted. -/
def exCsr : Csr Int :=
  { offsets := [0, 2, 3, 3, 6], endpoints := [3, 3, 1, 1, 0, 1], weights := [2, -1, 0, 5, 7, 4], n := 4, m := 6, nrows := 4, ncols := 4 }

theorem exCsr_valid : Spec.ValidCsr exCsr true where
  offsets := by decide
  first := by decide
  mono := by decide
  last := by decide
  endpoints := by decide
  weights := fun _ => by decide

theorem convertCsr_any [Nonempty W] {ow T : Nat} (hT : 0 < T) (stor : Storage) (cfg : Cfg) (wgt : Bool) (c : Csr W) :
    (convertCsr ow T stor cfg wgt c).Any := by
  obtain ⟨d⟩ := ‹Nonempty W›
  have : Nonempty (Junk W) := ⟨⟨fun _ => 0, fun _ => 0, fun _ => d⟩⟩
  unfold convertCsr
  refine R.Any.bind R.Any.any (fun _ => R.Any.bind R.Any.any (fun _ => R.Any.bind (R.Any.lift _) (fun _ => ?_)))
  split
  · exact R.Any.lift _
  · exact R.Any.bind R.Any.any (fun _ => R.Any.bind (R.Any.choose (OmpFor.one _ _ hT).dyn) (fun _ => R.Any.bind (R.Any.lift _)
      (fun _ => R.Any.bind (R.Any.par ..) (fun _ => R.Any.pure _))))

/-- `exCsr` meets the hypotheses of C27 and C28. -/
example : Spec.ValidCsr exCsr true ∧ 2 * exCsr.m < 2 ^ 32 ∧ (convertCsr 32 3 .shared { sym := true } true exCsr).Any ∧
    Spec.pairs exCsr = [(0, 3), (0, 3), (1, 1), (3, 1), (3, 0), (3, 1)] :=
  ⟨exCsr_valid, by decide, convertCsr_any (by omega) _ _ _ _, by decide⟩

/-! ## C29: the diagonal -/

theorem count_flatMap_mirror (l : List (Nat × Nat)) (v : Nat) :
    (l.flatMap (fun p => [(p.2, p.1), (p.1, p.2)])).count (v, v) = 2 * l.count (v, v) := by
  induction l with
  | nil => simp
  | cons p l ih =>
    rw [List.flatMap_cons, List.count_append, ih, List.count_cons, List.count_cons, List.count_cons, List.count_nil]
    by_cases h : p = (v, v)
    · subst h; simp; omega
    · have h1 : ¬ (p.2, p.1) = (v, v) := by
        intro hc; apply h; injection hc with a b; exact Prod.ext b a
      have h2 : ¬ (p.1, p.2) = (v, v) := h
      simp [h, h1]

/-- C29 does not hold: symmetrizing a CSR into a COO doubles every diagonal entry (whereas symmetrizing on
load keeps one copy, C14).  True of every CSR. -/
theorem C29_diagonal_violated [Inhabited W] (ow T : Nat) (stor : Storage) (wgt : Bool)
    (c : Csr W) (hc : Spec.ValidCsr c wgt) (hs : wgt = true → stor ≠ .vector) (hm : 2 * c.m < 2 ^ ow) (v : Nat) :
    (convertCsr ow T stor { sym := true } wgt c).All (fun r =>
      (r.x.zip r.y).count (v, v) = 2 * (Spec.pairs c).count (v, v)) := by
  refine (C28_symmetric ow T stor { sym := true } rfl rfl wgt c hc hs hm).mono (fun r hr => ?_)
  rw [hr.2.2.2]
  exact count_flatMap_mirror _ v

/-- C29, proved part: a CSR without diagonal entries gets none, so nothing is doubled. -/
theorem C29_no_diagonal_partial [Inhabited W] (ow T : Nat) (stor : Storage) (wgt : Bool)
    (c : Csr W) (hc : Spec.ValidCsr c wgt) (hs : wgt = true → stor ≠ .vector) (hm : 2 * c.m < 2 ^ ow)
    (hd : ∀ p ∈ Spec.pairs c, p.1 ≠ p.2) :
    (convertCsr ow T stor { sym := true } wgt c).All (fun r => ∀ p ∈ r.x.zip r.y, p.1 ≠ p.2) := by
  refine (C28_symmetric ow T stor { sym := true } rfl rfl wgt c hc hs hm).mono (fun r hr => ?_)
  rw [hr.2.2.2]
  intro p hp
  obtain ⟨q, hq, hpq⟩ := List.mem_flatMap.mp hp
  have := hd q hq
  simp only [Bool.false_eq_true, if_false, List.mem_cons, List.not_mem_nil, or_false] at hpq
  rcases hpq with rfl | rfl
  · exact Ne.symm this
  · exact this

/-- The CSR of the example has the diagonal entry (1, 1), which comes out twice. -/
example : (Spec.pairs exCsr).count (1, 1) = 1 ∧ Spec.ValidCsr exCsr true := ⟨by decide, exCsr_valid⟩

/-- A CSR without diagonal. -/
example : ∃ c : Csr Int, Spec.ValidCsr c true ∧ c.m = 2 ∧ ∀ p ∈ Spec.pairs c, p.1 ≠ p.2 :=
  ⟨⟨[0, 1, 2], [1, 0], [4, 5], 2, 2, 2, 2⟩, ⟨by decide, by decide, by decide, by decide, by decide, fun _ => by decide⟩,
    by decide, by decide⟩

end Pigo
