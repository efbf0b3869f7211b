import Verif.Props.Retype
import Verif.Props.Csr2
import Mathlib.Data.List.Perm.Subperm

/-!
# C102: there and back; removing duplicates into other types
-/

namespace Pigo

variable {W V : Type}

theorem flatMap_perm' {α β : Type} {f g : α → List β} : ∀ (l : List α), (∀ a ∈ l, (f a).Perm (g a)) → (l.flatMap f).Perm (l.flatMap g)
  | [], _ => List.Perm.refl _
  | a :: l, h => by
    rw [List.flatMap_cons, List.flatMap_cons]
    exact (h a (List.mem_cons_self ..)).append (flatMap_perm' l (fun b hb => h b (List.mem_cons_of_mem _ hb)))

theorem rowsOf_pairs {wgt : Bool} {c : Csr W} {n : Nat} {es : List (Nat × Nat × W)} (h : Spec.RowsOf c wgt n es) (hlab : ∀ e ∈ es, e.1 < n) :
    (Spec.pairs c).Perm (es.map (fun e => (e.1, e.2.1))) := by
  have hg := (group_perm (fun e : Nat × Nat × W => e.1) n es hlab).map (fun e => (e.1, e.2.1))
  rw [map_flatMap'] at hg
  refine List.Perm.trans ?_ hg
  unfold Spec.pairs
  rw [h.size]
  refine flatMap_perm' _ (fun v hv => ?_)
  refine ((h.rows v (List.mem_range.mp hv)).map _).trans (List.Perm.of_eq ?_)
  rw [List.map_map]
  apply List.map_congr_left
  intro e he
  have h1 : e.1 = v := by simpa using (List.mem_filter.mp he).2
  show (v, e.2.1) = (e.1, e.2.1)
  rw [h1]

theorem rowsOf_triples {c : Csr W} {n : Nat} {es : List (Nat × Nat × W)} (h : Spec.RowsOf c true n es) (hlab : ∀ e ∈ es, e.1 < n) :
    (Spec.triples c).Perm es := by
  refine List.Perm.trans ?_ (group_perm (fun e : Nat × Nat × W => e.1) n es hlab)
  unfold Spec.triples
  rw [h.size]
  refine flatMap_perm' _ (fun v hv => ?_)
  refine ((h.weights rfl v (List.mem_range.mp hv)).map _).trans (List.Perm.of_eq ?_)
  rw [List.map_map]
  refine (List.map_congr_left (g := fun e => e) ?_).trans (List.map_id'' (fun _ => rfl) _)
  intro e he
  have h1 : e.1 = v := by simpa using (List.mem_filter.mp he).2
  show (v, e.2.1, e.2.2) = e
  rw [← h1]

/-- The endpoints of a CSR of entries are columns of entries. -/
theorem rowsOf_endpoints {wgt : Bool} {c : Csr W} {n : Nat} {es : List (Nat × Nat × W)} (h : Spec.RowsOf c wgt n es) (hlab : ∀ e ∈ es, e.1 < n)
    [Inhabited W] : c.endpoints.Perm (es.map (fun e => e.2.1)) := by
  have hi := isCsr_of_valid h.valid (default : W)
  have hp := (rowsOf_pairs h hlab).map Prod.snd
  rw [List.map_map] at hp
  refine List.Perm.trans (List.Perm.of_eq ?_) hp
  rw [Spec.pairs, map_flatMap', hi.endpoints, List.flatMap_def, List.map_flatten, ← map_range_getD, ← hi.n]
  congr 1
  apply List.map_congr_left
  intro v hv
  rw [hi.row (hi.getD_row (List.mem_range.mp hv)), List.map_map, List.map_map]; rfl

/-- C102: a COO converted to a CSR of other (for example narrower) types and back to a COO of other types has the same entries, up
to their order, and the same `n`, if the values fit in all of the types. -/
theorem C102_there_and_back {U : Type} [Inhabited V] [Inhabited U] (lw ow lw' ow' T T' : Nat) (hT : 0 < T) (stor : Storage) (wgt : Bool) (conv : W → V) (back : V → U)
    (c : Coo W) (es : List (Nat × Nat × W)) (n nr nc : Nat) (hc : Spec.CooIs c wgt es n nr nc) (hfit : Spec.Fits lw ow n nr nc es)
    (hs : wgt = true → stor ≠ .vector) (hn' : n < 2 ^ lw') (hl' : ∀ e ∈ es, e.2.1 < 2 ^ lw') (hm' : es.length < 2 ^ ow') :
    (convertCooTo lw ow T wgt conv c >>= convertCsrTo lw' ow' T' stor {} wgt back).All (fun r =>
      r.n = n ∧ r.m = es.length ∧ (r.x.zip r.y).Perm (es.map (fun e => (e.1, e.2.1))) ∧
      (wgt = true → (r.x.zip (r.y.zip r.w)).Perm (es.map (fun e => (e.1, e.2.1, back (conv e.2.2)))))) := by
  refine R.All.bind (C102_coo_to_csr lw ow T hT wgt conv c es n nr nc hc hfit) (fun k hk => ?_)
  obtain ⟨hk, _, _⟩ := hk
  have hlab : ∀ e ∈ Spec.reweighted conv es, e.1 < n := by
    intro e he
    obtain ⟨x, hx, rfl⟩ := List.mem_map.mp he
    exact hfit.rows x hx
  have hep := rowsOf_endpoints hk hlab
  have hlen : (Spec.reweighted conv es).length = es.length := List.length_map _
  have hl2 : ∀ u ∈ k.endpoints, u < 2 ^ lw' := by
    intro u hu
    obtain ⟨e, he, rfl⟩ := List.mem_map.mp (hep.mem_iff.mp hu)
    obtain ⟨x, hx, rfl⟩ := List.mem_map.mp he
    exact hl' x hx
  have h1 := C102_csr_to_coo lw' ow' T' stor {} wgt back k hk.valid hs rfl (by simp) (by rw [hk.size]; exact hn') hl2
    (by show 1 * k.m < _; rw [hk.m, hlen]; omega)
  have hpp := rowsOf_pairs hk hlab
  have e1 : (Spec.reweighted conv es).map (fun e => (e.1, e.2.1)) = es.map (fun e => (e.1, e.2.1)) := by
    rw [Spec.reweighted, List.map_map]; rfl
  rw [e1] at hpp
  have epl : (Spec.pairs k).flatMap (Spec.flagged {}) = Spec.pairs k := by
    show (Spec.pairs k).flatMap (fun p => [p]) = _
    rw [List.flatMap_singleton']
  intro out hout
  obtain ⟨r, rfl, hrn, hrx, hry, hrz⟩ := h1 out hout
  rw [epl] at hrz
  have hrm : r.m = es.length := by
    have := congrArg List.length hrz
    rw [List.length_zip, hrx, hry, Nat.min_self, hpp.length_eq, List.length_map] at this
    exact this
  refine ⟨r, rfl, by rw [hrn, hk.size], hrm, by rw [hrz]; exact hpp, fun hw => ?_⟩
  subst hw
  obtain ⟨r', hr', _, hh⟩ := C102_csr_to_coo_weighted lw' ow' T' stor {} back k hk.valid (hs rfl) rfl (by simp)
    (by rw [hk.size]; exact hn') hl2 (by show 1 * k.m < _; rw [hk.m, hlen]; omega) _ hout
  injection hr' with hr'
  subst hr'
  have e2 : (Spec.triples k).flatMap (fun t => (Spec.flagged {} (t.1, t.2.1)).map (fun q => (q.1, q.2, back t.2.2))) =
      (Spec.triples k).map (fun t => (t.1, t.2.1, back t.2.2)) := by
    show (Spec.triples k).flatMap (fun t => [(t.1, t.2.1, back t.2.2)]) = _
    induction Spec.triples k with
    | nil => rfl
    | cons a l ih => rw [List.flatMap_cons, ih]; rfl
  rw [e2] at hh
  have e3 : r.x.zip (r.y.zip r.w) = (Spec.triples k).map (fun t => (t.1, t.2.1, back t.2.2)) := by
    rw [hh.x, hh.y, hh.w rfl, List.zip_map', List.zip_map']
    exact List.map_id'' (fun _ => rfl) _
  rw [e3]
  have := (rowsOf_triples hk hlab).map (fun t => (t.1, t.2.1, back t.2.2))
  refine this.trans (List.Perm.of_eq ?_)
  rw [Spec.reweighted, List.map_map]; rfl

/-! ## Removing duplicates -/

theorem fewEntries_of_m {ow : Nat} {wgt : Bool} {c : Csr W} [Inhabited W] (hc : Spec.ValidCsr c wgt) (hm : c.m < 2 ^ ow) : Spec.FewEntries ow c := by
  intro l hn hl
  have h1 := (List.subperm_of_subset hn hl).length_le
  have h2 := ValidCsr.pairs_length (isCsr_of_valid hc (default : W))
  omega

theorem mem_pairs {c : Csr W} {e : Nat × Nat} : e ∈ Spec.pairs c ↔ e.1 < c.n ∧ e.2 ∈ Spec.row c e.1 := by
  rw [Spec.pairs, List.mem_flatMap]
  constructor
  · rintro ⟨v, hv, he⟩
    obtain ⟨u, hu, rfl⟩ := List.mem_map.mp he
    exact ⟨List.mem_range.mp hv, hu⟩
  · rintro ⟨hv, hu⟩
    exact ⟨e.1, List.mem_range.mpr hv, List.mem_map.mpr ⟨e.2, hu, rfl⟩⟩

theorem withoutDupsTo_rows [Inhabited W] {lw nlw now T : Nat} (hT : 0 < T) {wgt nw : Bool} (hnw : nw = true → wgt = true) (wlt : W → W → Prop)
    (conv : W → V) (c : Csr W) (hc : Spec.ValidCsr c wgt) (hl : ∀ u ∈ c.endpoints, u + 1 < 2 ^ lw) (hl' : ∀ u ∈ c.endpoints, u < 2 ^ nlw)
    (hn : c.n < 2 ^ nlw) (hfit : Spec.OffsetsFit nlw c.n) (hm : Spec.FewEntries now c) :
    ∃ rows, IsCsr c wgt rows ∧ (withoutDupsTo lw nlw now T wgt nw wlt conv c).All (fun r => ∃ rows', IsCsr r.1 wgt rows' ∧ rows'.length = rows.length ∧
      r.1.n = c.n ∧ r.1.m = c.m ∧ r.1.nrows = c.nrows ∧ r.1.ncols = c.ncols ∧ r.1.offsets = c.offsets ∧
      (∀ (v : Nat) (l l' : List (Nat × W)), rows[v]? = some l → rows'[v]? = some l' →
        (l'.map Prod.fst).Perm (l.map Prod.fst) ∧ (l'.map Prod.fst).Pairwise (fun a b => ¬ b < a) ∧
        (wgt = true → l'.Perm l ∧ l'.Pairwise (fun a b => ¬ pairLt wlt b a))) ∧
      r.2.nrows = narrow nlw c.nrows ∧ r.2.ncols = narrow nlw c.ncols ∧
      IsCsr r.2 nw (rows'.map (fun l => (dedupRow l).map (fun q => (q.1, conv q.2))))) := by
  have hi := isCsr_of_valid hc (default : W)
  refine ⟨_, hi, ?_⟩
  have hp : 0 < 2 ^ lw := Nat.two_pow_pos lw
  refine withoutDupsTo_all (B := 2 ^ lw - 1) hT hi hnw (fun u hu => by have := hl u hu; omega) (by omega) hl' hn hfit ?_
  intro l hnd hmem
  refine hm l hnd (fun e he => ?_)
  obtain ⟨h1, h2⟩ := hmem e he
  rw [mem_pairs]
  refine ⟨by rw [hi.n]; exact h1, ?_⟩
  rw [hi.row (getD_some h1)]
  exact h2

/-- C102: `new_csr_without_dups` into other types: the new CSR is valid, has the same number of rows, and each of its rows is strictly
increasing and holds exactly the endpoints of the original row; the weights may be dropped (`nw = false`). -/
theorem C102_without_dups [Inhabited W] (lw nlw now T : Nat) (hT : 0 < T) (wgt nw : Bool) (hnw : nw = true → wgt = true) (wlt : W → W → Prop)
    (conv : W → V) (c : Csr W) (hc : Spec.ValidCsr c wgt) (hl : ∀ u ∈ c.endpoints, u + 1 < 2 ^ lw) (hl' : ∀ u ∈ c.endpoints, u < 2 ^ nlw)
    (hn : c.n < 2 ^ nlw) (hfit : Spec.OffsetsFit nlw c.n) (hnr : c.nrows < 2 ^ nlw) (hnc : c.ncols < 2 ^ nlw) (hm : Spec.FewEntries now c) :
    (withoutDupsTo lw nlw now T wgt nw wlt conv c).All (fun r =>
      (Spec.ValidCsr r.2 nw ∧ r.2.n = c.n ∧ r.2.nrows = c.nrows ∧ r.2.ncols = c.ncols ∧
        ∀ v, v < c.n → (Spec.row r.2 v).Pairwise (· < ·) ∧ ∀ u, u ∈ Spec.row r.2 v ↔ u ∈ Spec.row c v) ∧
      (Spec.ValidCsr r.1 wgt ∧ r.1.n = c.n ∧ r.1.m = c.m ∧ r.1.offsets = c.offsets ∧
        ∀ v, v < c.n → (Spec.row r.1 v).Perm (Spec.row c v) ∧ (Spec.row r.1 v).Pairwise (· ≤ ·))) := by
  obtain ⟨rows, hi, h⟩ := withoutDupsTo_rows hT hnw wlt conv c hc hl hl' hn hfit hm
  refine h.mono (fun r hr => ?_)
  obtain ⟨rows', h1, hlen, hn1, hm1, _, _, ho, hrows, h3, h4, h2⟩ := hr
  refine ⟨⟨h2.valid, by rw [h2.n, hi.n, List.length_map, hlen], by rw [h3, narrow_lt hnr], by rw [h4, narrow_lt hnc], fun v hv => ?_⟩,
    h1.valid, hn1, hm1, ho, fun v hv => ?_⟩
  all_goals
    rw [hi.n] at hv
    have e1 := getD_some hv
    have e2 := getD_some (rows := rows') (v := v) (by omega)
    obtain ⟨g1, g2, _⟩ := hrows v _ _ e1 e2
  · have e3 : (rows'.map (fun l => (dedupRow l).map (fun q => (q.1, conv q.2))))[v]? =
        some ((dedupRow (rows'.getD v [])).map (fun q => (q.1, conv q.2))) := by rw [List.getElem?_map, e2]; rfl
    rw [h2.row e3, hi.row e1, List.map_map]
    exact ⟨dedupRow_sorted _ g2, fun u => by
      show u ∈ (dedupRow (rows'.getD v [])).map Prod.fst ↔ _
      rw [dedupRow_mem, g1.mem_iff]⟩
  · rw [h1.row e2, hi.row e1]
    exact ⟨g1, g2.imp (fun h => Nat.le_of_not_lt h)⟩

/-- C102: the weights of the new CSR are the converted smallest weights of the original's equal entries. -/
theorem C102_smallest_weight [Inhabited W] (lw nlw now T : Nat) (hT : 0 < T) (wlt : W → W → Prop) (hw : Spec.StrictWeak wlt)
    (conv : W → V) (c : Csr W) (hc : Spec.ValidCsr c true) (hl : ∀ u ∈ c.endpoints, u + 1 < 2 ^ lw) (hl' : ∀ u ∈ c.endpoints, u < 2 ^ nlw)
    (hn : c.n < 2 ^ nlw) (hfit : Spec.OffsetsFit nlw c.n) (hm : Spec.FewEntries now c) :
    (withoutDupsTo lw nlw now T true true wlt conv c).All (fun r =>
      ∀ v, v < c.n → ∀ p ∈ (Spec.row r.2 v).zip (Spec.rowWeights r.2 v),
        ∃ w, p.2 = conv w ∧ (p.1, w) ∈ (Spec.row c v).zip (Spec.rowWeights c v) ∧
        ∀ q ∈ (Spec.row c v).zip (Spec.rowWeights c v), q.1 = p.1 → ¬ wlt q.2 w) := by
  obtain ⟨rows, hi, h⟩ := withoutDupsTo_rows (nw := true) hT (fun h => h) wlt conv c hc hl hl' hn hfit hm
  refine h.mono (fun r hr => ?_)
  obtain ⟨rows', h1, hlen, _, _, _, _, _, hrows, _, _, h2⟩ := hr
  intro v hv p hpm
  rw [hi.n] at hv
  have e1 := getD_some hv
  have e2 := getD_some (rows := rows') (v := v) (by omega)
  obtain ⟨g1, g2, g3⟩ := hrows v _ _ e1 e2
  obtain ⟨g3, g4⟩ := g3 rfl
  have e3 : (rows'.map (fun l => (dedupRow l).map (fun q => (q.1, conv q.2))))[v]? =
      some ((dedupRow (rows'.getD v [])).map (fun q => (q.1, conv q.2))) := by rw [List.getElem?_map, e2]; rfl
  rw [h2.zip e3] at hpm
  rw [hi.zip e1]
  obtain ⟨q, hq, rfl⟩ := List.mem_map.mp hpm
  refine ⟨q.2, rfl, g3.mem_iff.mp ((dedupRow_sublist _).subset hq), fun q' hq' he hlt => ?_⟩
  refine dedupRow_first (fun a b => ¬ pairLt wlt b a) ?_ g4 g2 hq (g3.mem_iff.mpr hq') he ?_
  · rintro a (h | ⟨_, h⟩)
    · omega
    · exact hw.irrefl _ h
  · exact .inr ⟨by dsimp only at he; omega, hlt⟩

/-- C102, `new_csr_without_dups` and sizes that do not fit: a CSR with `2^nlw` rows or more makes every execution store offsets
outside of the new array, whose size was computed in the label type of the new CSR. -/
theorem C102_too_many_rows_violated [Inhabited W] (lw nlw now T : Nat) (hT : 0 < T) (hnlw : 0 < nlw) (wgt nw : Bool) (wlt : W → W → Prop)
    (conv : W → V) (c : Csr W) (hc : Spec.ValidCsr c wgt) (hl : ∀ u ∈ c.endpoints, u + 1 < 2 ^ lw) (hn : 2 ^ nlw ≤ c.n) :
    ∀ out, (withoutDupsTo lw nlw now T wgt nw wlt conv c).Out out → out = .error .oob := by
  have hi := isCsr_of_valid hc (default : W)
  generalize rowsOfCsr wgt default c = rows at hi
  show R.Outside _
  unfold withoutDupsTo
  refine R.Outside.after (sortCsr_all hi) (fun c1 hc1 => ?_)
  obtain ⟨rows', h1, hlen, hn1, hm, hnr, hnc, ho, hwt, hrows⟩ := hc1
  have hbound : ∀ v, v < rows'.length → (dedupRow (rows'.getD v [])).length < 2 ^ lw := by
    intro v hv
    have hr' := getD_some hv
    have hr : rows[v]? = some (rows.getD v []) := getD_some (by omega)
    obtain ⟨g1, g2, _⟩ := hrows v _ _ hr hr'
    have := strict_length (B := 2 ^ lw - 1) ((dedupRow (rows'.getD v [])).map Prod.fst) 0 (dedupRow_sorted _ g2) (by
      intro u hu
      rw [dedupRow_mem, g1.mem_iff] at hu
      have hu' : u ∈ c.endpoints := by
        rw [hi.endpoints, List.map_flatten]
        exact List.mem_flatten.mpr ⟨_, List.mem_map_of_mem (List.mem_of_getElem? hr), hu⟩
      have := hl u hu'
      omega)
    rw [List.length_map] at this
    have := Nat.two_pow_pos lw
    omega
  let deg : Nat → Nat := fun v => (dedupRow (rows'.getD v [])).length
  have hdeg : ∀ v, v < rows'.length → dupDeg lw c1 v = .ok (deg v) := fun v hv => dupDeg_eq h1 (getD_some hv) (hbound v hv)
  have hnn : c1.n = rows'.length := h1.n
  refine R.Outside.after R.All.any (fun jd _ => ?_)
  refine R.Outside.after (Q := OmpDyn c1.n T) (R.All.choose (fun _ h => h)) (fun its hits => ?_)
  have hlt : ∀ v ∈ its.flatten, v < rows'.length := by
    intro v hv
    have := List.mem_range.mp (hits.all.mem_iff.mp hv)
    omega
  refine R.Outside.after (Q := fun t => t = its.map (fun vs => vs.map (fun v => (v, deg v))))
    (R.All.lift (mapE_nested (fun v hv => by rw [hdeg v (hlt v hv)]; rfl)) rfl) (fun counts hcounts => ?_)
  subst hcounts
  refine R.Outside.after (Q := fun d => d = alloc deg c1.n) (R.All.par (fun sched hs => ⟨_, fill_dyn hits deg hs _ (by simp), rfl⟩))
    (fun degs hdegs => ?_)
  have hdl : degs.length = c1.n := by rw [hdegs]; simp
  refine R.Outside.after R.All.any (fun j _ => ?_)
  refine R.Outside.after R.All.any (fun js _ => ?_)
  refine R.Outside.after (Q := fun s => s = (List.range T).map (fun tid => (slice degs c1.n T tid).sum)) (R.All.par (fun sched hs => ?_))
    (fun starts hstarts => ?_)
  · refine ⟨_, run_fill (vs := (List.range T).map (fun tid => (slice degs c1.n T tid).sum)) ?_ _ (by simp), rfl⟩
    refine hs.perm.trans (List.Perm.of_eq ?_)
    rw [← range_eq_blockActs (fun tid => (slice degs c1.n T tid).sum)]
    induction List.range T with
    | nil => rfl
    | cons a l ih => simp [ih]
  refine R.Outside.bind_left ?_
  rintro out ⟨sched, hs, rfl⟩
  apply run_store_outside
  have hp : 2 ≤ 2 ^ nlw := by
    calc 2 = 2 ^ 1 := rfl
      _ ≤ 2 ^ nlw := Nat.pow_le_pow_right (by omega) hnlw
  have hroom : plusOne nlw (narrow nlw c1.n) ≤ c1.n - 1 := by
    have h2 : narrow nlw c1.n + 2 ≤ c1.n := by
      have := Nat.mod_add_div c1.n (2 ^ nlw)
      have hq : 1 ≤ c1.n / 2 ^ nlw := Nat.div_pos (by rw [hn1]; exact hn) (Nat.two_pow_pos _)
      have h3 : 2 ^ nlw * 1 ≤ 2 ^ nlw * (c1.n / 2 ^ nlw) := Nat.mul_le_mul_left _ hq
      unfold narrow
      omega
    unfold plusOne
    split
    · omega
    · have := Nat.mod_le (narrow nlw c1.n + 1) (2 ^ nlw)
      omega
  have hpos : 0 < c1.n := by rw [hn1]; omega
  have hvs : vStart c1.n T (T - 1) ≤ c1.n - 1 := by
    unfold vStart
    apply Nat.le_sub_one_of_lt
    rw [Nat.div_lt_iff_lt_mul hT, Nat.mul_comm]
    exact Nat.mul_lt_mul_of_pos_left (by omega) hpos
  have hve : vStart c1.n T (T - 1 + 1) = c1.n := by
    rw [Nat.sub_add_cancel hT, vStart, Nat.mul_div_cancel_left _ hT]
  -- the store of the last thread for the last label
  have hsl : (slice degs c1.n T (T - 1)).length = c1.n - vStart c1.n T (T - 1) := by
    rw [slice, List.length_take, List.length_drop, hdl, hve, Nat.min_self]
  have hrs : ∀ (ds : List Nat) (a : Nat), (runSums a ds).length = ds.length := by
    intro ds
    induction ds with
    | nil => intro a; rfl
    | cons d ds ih => intro a; rw [runSums, List.length_cons, ih, List.length_cons]
  let blk := (runSums (startOf (prefixSums 0 starts) (T - 1)) (slice degs c1.n T (T - 1))).map (narrow now)
  have hbl : blk.length = c1.n - vStart c1.n T (T - 1) := by
    show (List.map _ _).length = _
    rw [List.length_map, hrs, hsl]
  have hlast : c1.n - 1 - vStart c1.n T (T - 1) < blk.length := by rw [hbl]; omega
  refine ⟨(c1.n - 1, blk[c1.n - 1 - vStart c1.n T (T - 1)]), ?_, by rw [alloc_length]; exact hroom⟩
  rw [hs.perm.mem_iff]
  refine List.mem_flatten.mpr ⟨blockActs (vStart c1.n T (T - 1)) blk, List.mem_append_left _ (List.mem_map.mpr
    ⟨T - 1, List.mem_range.mpr (by omega), rfl⟩), ?_⟩
  rw [mem_blockActs]
  exact ⟨c1.n - 1 - vStart c1.n T (T - 1), by show c1.n - 1 = _; omega, List.getElem?_eq_getElem hlast⟩

/-- C102, weights that do not exist: `new_csr_without_dups` of an unweighted CSR into a weighted one (`nw = true`, which compiles)
reads the weights of the original although it has none: if it has an entry, every execution reads outside of its memory. -/
theorem C102_no_weights_violated [Inhabited W] (lw nlw now T : Nat) (hT : 0 < T) (wlt : W → W → Prop)
    (conv : W → V) (c : Csr W) (hc : Spec.ValidCsr c false) (hnone : c.weights = []) (hm0 : 0 < c.m)
    (hl : ∀ u ∈ c.endpoints, u + 1 < 2 ^ lw) (hn : c.n < 2 ^ nlw) (hfit : Spec.OffsetsFit nlw c.n) (hm : Spec.FewEntries now c) :
    ∀ out, (withoutDupsTo lw nlw now T false true wlt conv c).Out out → out = .error .oob := by
  have hi := isCsr_of_valid hc (default : W)
  generalize rowsOfCsr false default c = rows at hi
  show R.Outside _
  unfold withoutDupsTo
  refine R.Outside.after (sortCsr_all hi) (fun c1 hc1 => ?_)
  obtain ⟨rows', h1, hlen, hn1, hm1, hnr, hnc, ho, hwt, hrows⟩ := hc1
  have hn1lt : c1.n < 2 ^ nlw := by rw [hn1]; exact hn
  have hp1 : plusOne nlw (narrow nlw c1.n) = c1.n + 1 := by
    rw [narrow_lt hn1lt]
    exact plusOne_fit (by rw [hn1]; exact hfit)
  simp only [hp1]
  have hsorted : ∀ v, v < rows'.length → ((rows'.getD v []).map Prod.fst).Pairwise (fun a b => ¬ b < a) := by
    intro v hv
    exact (hrows v _ _ (getD_some (by omega)) (getD_some hv)).2.1
  have hbound : ∀ v, v < rows'.length → (dedupRow (rows'.getD v [])).length < 2 ^ lw := by
    intro v hv
    have hr : rows[v]? = some (rows.getD v []) := getD_some (by omega)
    obtain ⟨g1, g2, _⟩ := hrows v _ _ hr (getD_some hv)
    have := strict_length (B := 2 ^ lw - 1) ((dedupRow (rows'.getD v [])).map Prod.fst) 0 (dedupRow_sorted _ g2) (by
      intro u hu
      rw [dedupRow_mem, g1.mem_iff] at hu
      have hu' : u ∈ c.endpoints := by
        rw [hi.endpoints, List.map_flatten]
        exact List.mem_flatten.mpr ⟨_, List.mem_map_of_mem (List.mem_of_getElem? hr), hu⟩
      have := hl u hu'
      omega)
    rw [List.length_map] at this
    have := Nat.two_pow_pos lw
    omega
  have htotal : (rows'.map dedupRow).flatten.length < 2 ^ now := by
    rw [← distinctPairs_length]
    refine hm _ (distinctPairs_nodup hsorted) ?_
    intro e he
    obtain ⟨v, hv, he⟩ := List.mem_flatMap.mp he
    obtain ⟨q, hq, rfl⟩ := List.mem_map.mp he
    have hv' := List.mem_range.mp hv
    rw [mem_pairs]
    have hvr : v < rows.length := by omega
    refine ⟨by show v < _; rw [hi.n]; exact hvr, ?_⟩
    show q.1 ∈ Spec.row c v
    obtain ⟨g1, _⟩ := hrows v _ _ (getD_some hvr) (getD_some hv')
    rw [hi.row (getD_some hvr), ← g1.mem_iff, ← dedupRow_mem]
    exact List.mem_map_of_mem hq
  let deg : Nat → Nat := fun v => (dedupRow (rows'.getD v [])).length
  have hdeg : ∀ v, v < rows'.length → dupDeg lw c1 v = .ok (deg v) := fun v hv => dupDeg_eq h1 (getD_some hv) (hbound v hv)
  have hnn : c1.n = rows'.length := h1.n
  refine R.Outside.after R.All.any (fun jd _ => ?_)
  refine R.Outside.after (Q := OmpDyn c1.n T) (R.All.choose (fun _ h => h)) (fun its hits => ?_)
  have hlt : ∀ {its : List (List Nat)}, OmpDyn c1.n T its → ∀ v ∈ its.flatten, v < rows'.length := by
    intro its hits v hv
    have := List.mem_range.mp (hits.all.mem_iff.mp hv)
    omega
  refine R.Outside.after (Q := fun t => t = its.map (fun vs => vs.map (fun v => (v, deg v))))
    (R.All.lift (mapE_nested (fun v hv => by rw [hdeg v (hlt hits v hv)]; rfl)) rfl) (fun counts hcounts => ?_)
  subst hcounts
  refine R.Outside.after (Q := fun d => d = alloc deg c1.n) (R.All.par (fun sched hs => ⟨_, fill_dyn hits deg hs _ (by simp), rfl⟩))
    (fun degs hdegs => ?_)
  have hnewM0 : ((its.map (fun vs => vs.map (fun v => (v, deg v)))).map (fun t => (t.map Prod.snd).sum)).sum = degs.sum := by
    rw [hdegs, alloc]
    have e : ∀ its : List (List Nat), ((its.map (fun vs => vs.map (fun v => (v, deg v)))).map (fun t => (t.map Prod.snd).sum)).sum =
        (its.flatten.map deg).sum := by
      intro its
      induction its with
      | nil => rfl
      | cons a its ih =>
        rw [List.map_cons, List.map_cons, List.sum_cons, ih, List.flatten_cons, List.map_append, List.sum_append, List.map_map]
        rfl
    rw [e]
    exact (hits.all.map deg).sum_nat
  have hdegrows : degs = (rows'.map dedupRow).map List.length := by
    rw [hdegs, alloc, hnn, List.map_map]
    exact map_range_getD rows' (fun r => (dedupRow r).length)
  have hnewlen : degs.sum = (rows'.map dedupRow).flatten.length := by rw [hdegrows, List.length_flatten]
  have hsumlt : degs.sum < 2 ^ now := by rw [hnewlen]; exact htotal
  have hnewM : narrow now ((its.map (fun vs => vs.map (fun v => (v, deg v)))).map (fun t => (t.map Prod.snd).sum)).sum = degs.sum := by
    rw [hnewM0, narrow_lt hsumlt]
  have hdl : degs.length = c1.n := by rw [hdegs]; simp
  refine R.Outside.after R.All.any (fun j _ => ?_)
  refine R.Outside.after R.All.any (fun js _ => ?_)
  refine R.Outside.after (Q := fun s => s = (List.range T).map (fun tid => (slice degs c1.n T tid).sum)) (R.All.par (fun sched hs => ?_))
    (fun starts hstarts => ?_)
  · refine ⟨_, run_fill (vs := (List.range T).map (fun tid => (slice degs c1.n T tid).sum)) ?_ _ (by simp), rfl⟩
    refine hs.perm.trans (List.Perm.of_eq ?_)
    rw [← range_eq_blockActs (fun tid => (slice degs c1.n T tid).sum)]
    induction List.range T with
    | nil => rfl
    | cons a l ih => simp [ih]
  subst hstarts
  refine R.Outside.after (Q := fun o => o = offsetsOf degs) (R.All.par (fun sched hs => ?_)) (fun offs hoffs => ?_)
  · rw [hnewM, offsetThreadsTo_eq hsumlt hn1lt] at hs
    exact ⟨_, run_offsets hT hdl hs _ (by simp), rfl⟩
  subst hoffs
  refine R.Outside.after (Q := OmpDyn c1.n T) (R.All.choose (fun _ h => h)) (fun its2 hits2 => ?_)
  refine R.Outside.bind_left (R.Outside.lift ?_)
  have hw1 : c1.weights = [] := by rw [← hnone]; exact hwt rfl
  have hrow : ∀ v, v < rows'.length → dupCopyTo nlw now true conv c1 (offsetsOf degs) v =
      if (rows'.getD v []) = [] then .ok [] else .error .oob := by
    intro v hv
    obtain ⟨a1, a2, a3, _⟩ := h1.load_row (getD_some hv)
    unfold dupCopyTo
    rw [a1, ok_bind, a2, ok_bind, a3, ok_bind, hw1]
    by_cases he : rows'.getD v [] = []
    · rw [if_pos he, he]
      simp [loadRange, mapE, dupRow, ok_bind]
    · have hpos : 0 < (rows'.getD v []).length := List.length_pos_iff.mpr he
      rw [if_neg he, if_pos rfl, Nat.add_comm]
      have : loadRange ([] : List W) (rows'.take v).flatten.length ((rows'.getD v []).length + (rows'.take v).flatten.length) = .error .oob := by
        unfold loadRange
        rw [Nat.add_sub_cancel]
        obtain ⟨k, hk⟩ : ∃ k, (rows'.getD v []).length = k + 1 := ⟨_, (Nat.sub_add_cancel hpos).symm⟩
        rw [hk, List.range'_succ, mapE]
        rfl
      rw [this]; rfl
  have hcase : ∀ v ∈ its2.flatten, (∃ b, dupCopyTo nlw now true conv c1 (offsetsOf degs) v = .ok b) ∨
      dupCopyTo nlw now true conv c1 (offsetsOf degs) v = .error .oob := by
    intro v hv
    rw [hrow v (hlt hits2 v hv)]
    split
    · exact .inl ⟨_, rfl⟩
    · exact .inr rfl
  have hne : ∃ v, v < rows'.length ∧ rows'.getD v [] ≠ [] := by
    have hpos : 0 < rows'.flatten.length := by rw [← h1.m, hm1]; exact hm0
    obtain ⟨x, hx⟩ := List.exists_mem_of_length_pos hpos
    obtain ⟨r, hr, hxr⟩ := List.mem_flatten.mp hx
    obtain ⟨v, hv, rfl⟩ := List.mem_iff_getElem.mp hr
    refine ⟨v, hv, ?_⟩
    rw [List.getD_eq_getElem?_getD, List.getElem?_eq_getElem hv]
    exact List.ne_nil_of_mem hxr
  obtain ⟨v, hv, hr⟩ := hne
  have hmem : v ∈ its2.flatten := hits2.all.mem_iff.mpr (List.mem_range.mpr (by rw [hnn]; exact hv))
  obtain ⟨vs, hvs, hvv⟩ := List.mem_flatten.mp hmem
  apply mapE_error
  · intro vs hvs
    exact mapE_total (fun v hv => hcase v (List.mem_flatten.mpr ⟨vs, hvs, hv⟩))
  · exact ⟨vs, hvs, mapE_error (fun v hv => hcase v (List.mem_flatten.mpr ⟨vs, hvs, hv⟩)) ⟨v, hvv, by rw [hrow v hv, if_neg hr]⟩⟩

/-! ## Executions exist; the hypotheses are met -/

theorem convertCooTo_any [Nonempty V] {lw ow T : Nat} (hT : 0 < T) (wgt : Bool) (conv : W → V) (c : Coo W) :
    (convertCooTo lw ow T wgt conv c).Any := by
  rw [convertCooTo_eq]; exact convertCoo_any hT _ _

theorem convertCsrTo_any [Nonempty V] {lw ow T : Nat} (hT : 0 < T) (stor : Storage) (cfg : Cfg) (wgt : Bool) (conv : W → V) (c : Csr W) :
    (convertCsrTo lw ow T stor cfg wgt conv c).Any := by
  rw [convertCsrTo_eq]; exact convertCsr_any hT _ _ _ _

theorem withoutDupsTo_any [Nonempty V] {lw nlw now T : Nat} (hT : 0 < T) (wgt nw : Bool) {wlt : W → W → Prop} (h : Spec.StrictWeak wlt)
    (conv : W → V) (c : Csr W) : (withoutDupsTo lw nlw now T wgt nw wlt conv c).Any := by
  obtain ⟨d⟩ := ‹Nonempty V›
  have : Nonempty (CsrJunk V) := ⟨⟨fun _ => 0, fun _ => 0, fun _ => d⟩⟩
  unfold withoutDupsTo
  refine R.Any.bind (sortCsr_any hT wgt h c) (fun _ => R.Any.bind R.Any.any (fun _ => R.Any.bind (R.Any.choose (OmpFor.one _ _ hT).dyn) (fun _ =>
    R.Any.bind (R.Any.lift _) (fun _ => R.Any.bind (R.Any.par ..) (fun _ => R.Any.bind R.Any.any (fun _ => R.Any.bind R.Any.any (fun _ =>
    R.Any.bind (R.Any.par ..) (fun _ => R.Any.bind (R.Any.par ..) (fun _ => R.Any.bind (R.Any.choose (OmpFor.one _ _ hT).dyn) (fun _ =>
    R.Any.bind (R.Any.lift _) (fun _ => R.Any.bind (R.Any.par ..) (fun _ => R.Any.pure _))))))))))))

/-- `exCoo`, weighted by `int`, into a CSR with 8-bit labels and ordinals and (here) weights reduced modulo 256; and back. -/
example : Spec.CooIs exCoo true exCooEntries 4 3 4 ∧ Spec.Fits 8 8 4 3 4 exCooEntries ∧ (∀ e ∈ exCooEntries, e.2.1 < 4) ∧
    (convertCooTo 8 8 4 true (fun w => w % 256) exCoo >>= convertCsrTo 64 64 3 .shared {} true (fun w => w)).Any :=
  ⟨⟨exCoo_holds, rfl, rfl, rfl⟩, ⟨by decide, by decide, .inl (by decide), by decide, by decide, by decide, by decide⟩, by decide,
    R.Any.bind (convertCooTo_any (by omega) _ _ _) (fun _ => convertCsrTo_any (by omega) _ _ _ _ _)⟩

/-- `exCsr` with 16-bit labels, its duplicates removed into a CSR with 8-bit labels and 3-bit ordinals. -/
example : Spec.ValidCsr exCsr true ∧ (∀ u ∈ exCsr.endpoints, u + 1 < 2 ^ 16) ∧ (∀ u ∈ exCsr.endpoints, u < 2 ^ 8) ∧ exCsr.n < 2 ^ 8 ∧
    Spec.OffsetsFit 8 exCsr.n ∧ exCsr.nrows < 2 ^ 8 ∧ exCsr.ncols < 2 ^ 8 ∧ Spec.FewEntries 3 exCsr ∧
    (withoutDupsTo 16 8 3 4 true true (fun a b => a < b) (fun w => w) exCsr).Any :=
  ⟨exCsr_valid, by decide, by decide, by decide, .inl (by decide), by decide, by decide, fewEntries_of_m exCsr_valid (by decide),
    withoutDupsTo_any (by omega) _ _ intLt_strictWeak _ _⟩

/-- Cut labels that fall outside, and cut labels that do not: `n = 2^8 + 2`, an entry in row `2^8 - 1` and one in row `2^8 + 1`. -/
example : (∃ e ∈ Spec.truncated 8 8 (fun w => w) [(255, 0, ())], 258 % 2 ^ 8 ≤ e.1) ∧
    (∀ e ∈ Spec.truncated 8 8 (fun w => w) [(257, 0, ())], e.1 < 258 % 2 ^ 8) ∧ Spec.OffsetsFit 8 (258 % 2 ^ 8) :=
  ⟨by decide, by decide, .inl (by decide)⟩

/-- A CSR of 300 rows without entries (for 8-bit labels), and an unweighted CSR with entries. -/
example : Spec.ValidCsr ({ offsets := List.replicate 301 0, endpoints := [], weights := [], n := 300, m := 0, nrows := 300, ncols := 300 } : Csr Unit) false ∧
    2 ^ 8 ≤ 300 ∧
    Spec.ValidCsr ({ offsets := [0, 1, 2], endpoints := [1, 0], weights := [], n := 2, m := 2, nrows := 2, ncols := 2 } : Csr Unit) false :=
  ⟨⟨by decide +kernel, by decide +kernel, by decide +kernel, by decide +kernel, rfl, fun h => by cases h⟩, by decide,
    ⟨by decide, by decide, by decide, by decide, rfl, fun h => by cases h⟩⟩

end Pigo
