import Verif.Lemmas.Loose
import Verif.Props.CrossFile
import Verif.Props.GraphComments
import Verif.Props.Cut

/-!
# Using CSR objects loaded from `.graph` files

C107: such a CSR may hold more offsets than `n + 1` and more endpoints than those of its first `n` rows (one-based files, blank
lines at the end of the file).
-/

namespace Pigo

variable {W : Type}

theorem loose_of_valid {c : Csr W} (h : Spec.ValidCsr c false) : Spec.LooseCsr c :=
  ⟨Nat.le_of_eq h.offsets.symm, h.first, h.mono, Nat.le_of_eq h.last, h.endpoints⟩

theorem pairs_firstRows {c : Csr W} (h : Spec.LooseCsr c) : Spec.pairs (firstRows c) = Spec.pairs c := by
  unfold Spec.pairs
  exact flatMap_congr' (fun v hv => by rw [row_firstRows h (List.mem_range.mp hv)])

theorem loose_ext {c : Csr W} (h : Spec.ValidCsr c false) (eo ee : List Nat) :
    Spec.LooseCsr (extCsr c eo ee (c.m + ee.length)) where
  offsets := by
    show c.n + 1 ≤ (c.offsets ++ eo).length
    rw [List.length_append, h.offsets]; omega
  first := by
    unfold Spec.off extCsr
    simp only
    rw [List.getD_eq_getElem?_getD, List.getElem?_append_left (by rw [h.offsets]; omega), ← List.getD_eq_getElem?_getD]
    exact h.first
  mono := by
    intro v hv
    obtain ⟨h1, h2, _⟩ := ext_row h eo ee (c.m + ee.length) (v := v) hv
    rw [h1, h2]; exact h.mono v hv
  last := by
    rw [show (extCsr c eo ee (c.m + ee.length)).n = c.n from rfl, ext_off_last h]
    exact Nat.le_add_right ..
  endpoints := by
    show (c.endpoints ++ ee).length = c.m + ee.length
    rw [List.length_append, h.endpoints]

theorem beyond_length {c : Csr W} (h : Spec.LooseCsr c) : (Spec.beyond c).length = c.m - Spec.off c c.n := by
  rw [Spec.beyond, List.length_drop, h.endpoints]

/-- C107: the neighbors of a vertex of such a graph are its row, its degree their number. -/
theorem C107_neighbors (lw ow : Nat) (g : Csr W) (hg : Spec.LooseCsr g) (hn : g.n < 2 ^ lw) (hm : g.m < 2 ^ ow) (v : Nat) (hv : v < g.n) :
    neighbors lw ow g v = .ok (Spec.row g v) ∧ degree lw ow g v = .ok (Spec.row g v).length := by
  have h0 : plusOne lw v = v + 1 := by unfold plusOne; split
                                       · rfl
                                       · exact Nat.mod_eq_of_lt (by omega)
  have hload : ∀ u, u ≤ g.n → load g.offsets u = .ok (Spec.off g u) := by
    intro u hu
    have hl : u < g.offsets.length := by have := hg.offsets; omega
    rw [load_ok (List.getElem?_eq_getElem hl), Spec.off, List.getD_eq_getElem?_getD, List.getElem?_eq_getElem hl]; rfl
  have h1 := hload v (by omega)
  have h2 := hload (v + 1) (by omega)
  have hm1 := hg.mono v hv
  have hm2 := Nat.le_trans (loose_off_le hg (v + 1) hv) hg.last
  have e : Spec.off g v + (Spec.off g (v + 1) - Spec.off g v) = Spec.off g (v + 1) := by omega
  refine ⟨?_, ?_⟩
  · rw [neighbors, neighborStart, h1, ok_bind, neighborEnd, h0, h2, ok_bind, ← e,
      iterate_ok (by rw [hg.endpoints]; exact hm) _ _ _ (by omega) (by rw [hg.endpoints]; omega), Spec.row]
  · rw [degree, neighborEnd, h0, h2, ok_bind, neighborStart, h1, ok_bind, Spec.row, List.length_take,
      List.length_drop, hg.endpoints]
    congr 1
    rw [show 2 ^ ow + Spec.off g (v + 1) - Spec.off g v = (Spec.off g (v + 1) - Spec.off g v) + 2 ^ ow from by omega,
      Nat.add_mod_right, Nat.mod_eq_of_lt (by omega)]
    omega

/-- C107: a CSR loaded from a `.graph` file can be sorted: each of its `n` rows is sorted, and nothing else changes. -/
theorem C107_sort [Inhabited W] (T : Nat) (wlt : W → W → Prop) (c : Csr W) (hc : Spec.LooseCsr c) :
    (sortCsr T false wlt c).All (fun r => Spec.LooseCsr r ∧ r.n = c.n ∧ r.m = c.m ∧ r.nrows = c.nrows ∧ r.ncols = c.ncols ∧
      r.offsets = c.offsets ∧ Spec.beyond r = Spec.beyond c ∧
      ∀ v, v < c.n → (Spec.row r v).Perm (Spec.row c v) ∧ (Spec.row r v).Pairwise (· ≤ ·)) := by
  have hv := firstRows_valid hc
  have hext := sortCsr_ext (T := T) (wlt := wlt) hv (c.offsets.drop (c.n + 1)) (Spec.beyond c) c.m
  rw [ext_firstRows] at hext
  have hm : c.m = Spec.off c c.n + (Spec.beyond c).length := by rw [beyond_length hc]; have := hc.last; omega
  refine hext.mono (fun r hr => ?_)
  obtain ⟨r0, h0, rfl⟩ := hr
  obtain ⟨_, he, h1, hn, hm0, hnr, hnc, ho, hrows⟩ := C32_sort T false wlt _ hv _ h0
  cases he
  have hn' : r0.n = c.n := hn
  have hm1 : r0.m = Spec.off c c.n := hm0
  have hloose := loose_ext h1 (c.offsets.drop (c.n + 1)) (Spec.beyond c)
  rw [hm1, ← hm] at hloose
  refine ⟨hloose, hn, rfl, hnr, hnc, ?_, ext_beyond h1 _ _ _, fun v hv => ?_⟩
  · show r0.offsets ++ _ = _
    rw [ho]; exact List.take_append_drop _ _
  · rw [(ext_row h1 _ _ _ (v := v) (hn' ▸ hv)).2.2]
    have := hrows v hv
    rw [row_firstRows hc hv] at this
    exact this

/-- C107: `new_csr_without_dups` on such a CSR gives a CSR with exactly the `n` rows, sorted and without duplicates; what lies
beyond the rows is left out. -/
theorem C107_without_dups [Inhabited W] (lw T : Nat) (hT : 0 < T) (wlt : W → W → Prop) (c : Csr W)
    (hc : Spec.LooseCsr c) (hl : ∀ u ∈ c.endpoints, u + 1 < 2 ^ lw) (hfit : Spec.OffsetsFit lw c.n) :
    (withoutDups lw T false wlt c).All (fun r =>
      (Spec.ValidCsr r.2 false ∧ r.2.n = c.n ∧ r.2.nrows = c.nrows ∧ r.2.ncols = c.ncols ∧
        ∀ v, v < c.n → (Spec.row r.2 v).Pairwise (· < ·) ∧ ∀ u, u ∈ Spec.row r.2 v ↔ u ∈ Spec.row c v) ∧
      (Spec.LooseCsr r.1 ∧ r.1.n = c.n ∧ r.1.m = c.m ∧ r.1.offsets = c.offsets ∧ Spec.beyond r.1 = Spec.beyond c ∧
        ∀ v, v < c.n → (Spec.row r.1 v).Perm (Spec.row c v) ∧ (Spec.row r.1 v).Pairwise (· ≤ ·))) := by
  have hv := firstRows_valid hc
  have hext := withoutDups_ext (wlt := wlt) hv (c.offsets.drop (c.n + 1)) (Spec.beyond c) c.m
    (C34_without_dups lw T hT false wlt _ hv (fun u hu => hl u (List.mem_of_mem_take hu)) hfit)
  rw [ext_firstRows] at hext
  have hm : c.m = Spec.off c c.n + (Spec.beyond c).length := by rw [beyond_length hc]; have := hc.last; omega
  refine hext.mono (fun r hr => ?_)
  obtain ⟨r0, ⟨⟨g1, g2, g3, g4, g5⟩, h1, hn, hm0, ho, hrows⟩, he⟩ := hr
  rw [he]
  have hn' : r0.n = c.n := hn
  have hm1 : r0.m = Spec.off c c.n := hm0
  have hloose := loose_ext h1 (c.offsets.drop (c.n + 1)) (Spec.beyond c)
  rw [hm1, ← hm] at hloose
  refine ⟨⟨g1, g2, g3, g4, fun v hv => ?_⟩, hloose, hn, rfl, ?_, ext_beyond h1 _ _ _, fun v hv => ?_⟩
  · have := g5 v hv
    rw [row_firstRows hc hv] at this
    exact this
  · show r0.offsets ++ _ = _
    rw [ho]; exact List.take_append_drop _ _
  · rw [(ext_row h1 _ _ _ (v := v) (hn' ▸ hv)).2.2]
    have := hrows v hv
    rw [row_firstRows hc hv] at this
    exact this

theorem firstRows_coo [Inhabited W] {ow T : Nat} {stor : Storage} {cfg : Cfg} (hsl : cfg.sl = false) (hut : cfg.ut = true → cfg.sym = true)
    {c : Csr W} (hc : Spec.LooseCsr c) (hm : csrFactor cfg * c.m < 2 ^ ow) :
    (convertCsr ow T stor cfg false (firstRows c)).All (fun r => r.x.length = r.m ∧ r.y.length = r.m ∧
      r.x.zip r.y = (Spec.pairs c).flatMap (Spec.flagged cfg)) := by
  have hv := firstRows_valid hc
  have hi := isCsr_of_valid hv (default : W)
  have hm0 : csrFactor cfg * (firstRows c).m < 2 ^ ow := Nat.lt_of_le_of_lt (Nat.mul_le_mul_left _ hc.last) hm
  refine (convertCsr_all (T := T) (stor := stor) hi (by intro h; cases h) hsl hut hm0).mono (fun r hr => ?_)
  obtain ⟨hn, hh⟩ := hr
  obtain ⟨h1, h2, h3⟩ := holds_xy hh
  refine ⟨h2, h3, ?_⟩
  rw [h1, csrEntries_xy hi cfg, pairs_firstRows hc]
  exact flatMap_congr' (fun p _ => csrEntry_flagged p)

theorem junkFrom_length (j : Nat → Nat) (p k : Nat) : (junkFrom j p k).length = k := by unfold junkFrom; simp

/-- C107: converting such a CSR to a COO: the COO has an entry (with `symmetric` and not `upper triangle` two) for every endpoint
of the CSR; the first ones are the entries of the `n` rows, with the flags applied. -/
theorem C107_to_coo [Inhabited W] (ow T : Nat) (stor : Storage) (cfg : Cfg) (hsl : cfg.sl = false) (hut : cfg.ut = true → cfg.sym = true)
    (c : Csr W) (hc : Spec.LooseCsr c) (f : Nat) (hf : f = if cfg.sym && !cfg.ut then 2 else 1) (hm : f * c.m < 2 ^ ow) :
    (convertCsr ow T stor cfg false c).All (fun r => r.n = c.n ∧ r.m = f * c.m ∧ r.x.length = r.m ∧ r.y.length = r.m ∧
      (r.x.zip r.y).take (f * Spec.off c c.n) = (Spec.pairs c).flatMap (Spec.flagged cfg)) := by
  have hfe : csrFactor cfg = f := hf.symm
  rw [← hfe] at hm
  have hm1 : c.m = (firstRows c).m + (Spec.beyond c).length := by
    show _ = Spec.off c c.n + _
    rw [beyond_length hc]; have := hc.last; omega
  have hext := convertCsr_ext (T := T) (stor := stor) (ow := ow) hsl hut (c := firstRows c) (eo := c.offsets.drop (c.n + 1)) (ee := Spec.beyond c)
    (k := (Spec.beyond c).length) (by rw [← hm1]; exact hm) (firstRows_coo hsl hut hc hm)
  rw [← hm1, ext_firstRows] at hext
  refine hext.mono (fun r hr => ?_)
  obtain ⟨r0, j, ⟨g1, g2, g3⟩, hrm, hrn, rfl⟩ := hr
  have hrm' : r0.m = f * Spec.off c c.n := by rw [hrm, hfe]; rfl
  refine ⟨hrn, ?_, ?_, ?_, ?_⟩
  · show r0.m + csrFactor cfg * _ = _
    rw [hrm, ← Nat.mul_add, ← hm1, hfe]
  · show (r0.x ++ _).length = r0.m + _
    rw [List.length_append, junkFrom_length, g1]
  · show (r0.y ++ _).length = r0.m + _
    rw [List.length_append, junkFrom_length, g2]
  · show ((r0.x ++ _).zip (r0.y ++ _)).take _ = _
    rw [List.zip_append (by rw [g1, g2]), List.take_append_of_le_length (by rw [List.length_zip, g1, g2, Nat.min_self, hrm']; exact Nat.le_refl _),
      List.take_of_length_le (by rw [List.length_zip, g1, g2, Nat.min_self, hrm']; exact Nat.le_refl _), g3]

/-- C107 fails when endpoints lie beyond the rows, as in every one-based file with edges from its last vertex: these entries of
the COO are what the allocated memory held, any pairs `junk`, and the edges of the last vertex are not in the COO (arrays that are
pointers, as by default; a `std::vector` is filled with zeros). -/
theorem C107_to_coo_violated [Inhabited W] (ow T : Nat) (hT : 0 < T) (stor : Storage) (_hstor : stor ≠ .vector) (cfg : Cfg) (hsl : cfg.sl = false)
    (hut : cfg.ut = true → cfg.sym = true) (c : Csr W) (hc : Spec.LooseCsr c) (f : Nat) (hf : f = if cfg.sym && !cfg.ut then 2 else 1)
    (hm : f * c.m < 2 ^ ow) (junk : List (Nat × Nat)) (hj : junk.length = f * (c.m - Spec.off c c.n)) :
    ∃ r, (convertCsr ow T stor cfg false c).Out (.ok r) ∧ r.n = c.n ∧ r.m = f * c.m ∧
      r.x.zip r.y = (Spec.pairs c).flatMap (Spec.flagged cfg) ++ junk := by
  have hfe : csrFactor cfg = f := hf.symm
  rw [← hfe] at hm
  have hm1 : c.m = (firstRows c).m + (Spec.beyond c).length := by
    show _ = Spec.off c c.n + _
    rw [beyond_length hc]; have := hc.last; omega
  let j : Junk W := ⟨fun i => (junk.getD (i - f * Spec.off c c.n) (0, 0)).1, fun i => (junk.getD (i - f * Spec.off c c.n) (0, 0)).2, fun _ => default⟩
  obtain ⟨r0, ⟨g1, g2, g3⟩, hrm, hrn, _, _, hout⟩ := convertCsr_ext_any (T := T) hT (stor := stor) (ow := ow) hsl hut (c := firstRows c)
    (eo := c.offsets.drop (c.n + 1)) (ee := Spec.beyond c)
    (k := (Spec.beyond c).length) (by rw [← hm1]; exact hm) (firstRows_coo hsl hut hc hm) j 0 0
  rw [← hm1, ext_firstRows] at hout
  have hrm' : r0.m = f * Spec.off c c.n := by rw [hrm, hfe]; rfl
  have hk : csrFactor cfg * (Spec.beyond c).length = junk.length := by rw [hj, hfe, beyond_length hc]
  refine ⟨_, hout, hrn, ?_, ?_⟩
  · show r0.m + csrFactor cfg * _ = _
    rw [hrm, ← Nat.mul_add, ← hm1, hfe]
  · show ((r0.x ++ _).zip (r0.y ++ _)) = _
    rw [List.zip_append (by rw [g1, g2]), g3, hk]
    congr 1
    unfold junkFrom
    rw [hrm']
    apply List.ext_getElem?
    intro i
    rw [List.zip_map', List.getElem?_map]
    by_cases hi : i < junk.length
    · rw [List.getElem?_range' hi, List.getElem?_eq_getElem hi]
      simp [j, hi]
    · rw [List.getElem?_eq_none (by simp; omega), List.getElem?_eq_none (by omega)]; rfl

/-! ### Saving -/

theorem parWrite_appL {T : Nat} (hT : 0 < T) {v : List Byte} (t : List Byte) {n : Nat} (hn : v.length = n) (f : WFile) :
    parWrite T (v ++ t) n f = parWrite T v n f := by
  obtain ⟨threads, h1, _⟩ := par_copy (v := load v) (bs := v) (fun _ _ => rfl) (base := f.fp) hT hn
    (dst := List.replicate (f.fp + n) 0) (by simp)
  have h2 : mapE (chunkActs (load (v ++ t)) f.fp n T) (List.range T) = .ok threads := by
    refine mapE_imp (fun tid b hb => ?_) h1
    unfold chunkActs at hb ⊢
    cases h3 : mapE (load v) (List.range' (chunkStart n T tid) (chunkLen n T tid)) with
    | error e => rw [h3] at hb; cases hb
    | ok bs => rw [h3] at hb; rw [mapE_imp (fun i w hw => load_appL t hw) h3]; exact hb
  unfold parWrite
  rw [h1, h2]

theorem rawLE_len (k : Nat) (l : List Nat) : (rawArr (encLE k) l).length = k * l.length := rawArr_length (fun v => encLE_length k v) l

/-- C107: such a CSR can be saved and loaded: only the superfluous offsets are lost. -/
theorem C107_save (P : Params W) (T : Nat) (hT : 0 < T) (hT' : 0 < P.T) (hlb : P.lb < 256) (hob : P.ob < 256) (c : Csr W)
    (h : Spec.FitsCsr P.lb P.ob P.wk.wgt P.cw { c with offsets := c.offsets.take (c.n + 1) }) (fn : List Byte) (pad : Nat) (ft : FileType)
    (hft : ft = .auto ∨ ft = .csrBin) :
    (saveCsr T P.lb P.ob P.wk.wgt P.cw c >>= fun bs => readCsr P ⟨bs, pad⟩ fn 0 ft).All
      (fun r => r.1 = { c with offsets := c.offsets.take (c.n + 1) }) := by
  have hs : succL P.lb c.n = c.n + 1 := succL_eq h.room
  have hl : (c.offsets.take (c.n + 1)).length = c.n + 1 := h.offsets.1
  have e : saveCsr T P.lb P.ob P.wk.wgt P.cw c = saveCsr T P.lb P.ob P.wk.wgt P.cw { c with offsets := c.offsets.take (c.n + 1) } := by
    unfold saveCsr saveCsrTo csrSaveSize
    simp only [hs]
    have hw : ∀ f, parWrite T (rawArr (encLE P.ob) c.offsets) (P.ob * (c.n + 1)) f =
        parWrite T (rawArr (encLE P.ob) (c.offsets.take (c.n + 1))) (P.ob * (c.n + 1)) f := by
      intro f
      have : rawArr (encLE P.ob) c.offsets = rawArr (encLE P.ob) (c.offsets.take (c.n + 1)) ++ rawArr (encLE P.ob) (c.offsets.drop (c.n + 1)) := by
        unfold rawArr
        rw [← List.flatMap_append, List.take_append_drop]
      rw [this]
      exact parWrite_appL hT _ (by rw [rawLE_len, hl]) f
    simp only [hw]
  rw [e]
  exact C38_csr_roundtrip P T hT hT' hlb hob _ h fn pad ft hft

/-! ### From a file -/

theorem graphCsr_off_le (lw n base : Nat) (rows : List (List Nat)) (i : Nat) (hi : i ≤ base + rows.length) :
    Spec.off (graphCsr lw n base rows : Csr W) i = (rows.take (i - base)).flatten.length := by
  by_cases h : i ≤ base
  · rw [graphCsr_off_zero _ _ _ _ _ h, Nat.sub_eq_zero_of_le h]; rfl
  · obtain ⟨k, rfl⟩ : ∃ k, i = base + k := ⟨i - base, by omega⟩
    rw [graphCsr_off _ _ _ _ k (by omega), Nat.add_sub_cancel_left]

theorem flatten_take_le {α : Type} (rows : List (List α)) {i j : Nat} (h : i ≤ j) :
    (rows.take i).flatten.length ≤ (rows.take j).flatten.length := by
  have : rows.take i = (rows.take j).take i := by rw [List.take_take, Nat.min_eq_left h]
  rw [this]
  conv => rhs; rw [← List.take_append_drop i (rows.take j), List.flatten_append, List.length_append]
  omega

theorem graphCsr_loose (lw n base : Nat) (rows : List (List Nat)) (hn : n ≤ base + rows.length) :
    Spec.LooseCsr (graphCsr lw n base rows : Csr W) where
  offsets := by
    show n + 1 ≤ (List.replicate (base + 1) 0 ++ prefixSums 0 (rows.map List.length)).length
    rw [List.length_append, List.length_replicate, prefixSums_length, List.length_map]; omega
  first := graphCsr_off_zero _ _ _ _ _ (Nat.zero_le _)
  mono := by
    intro v hv
    have hv' : v < n := hv
    rw [graphCsr_off_le _ _ _ _ _ (by omega), graphCsr_off_le _ _ _ _ _ (by omega)]
    exact flatten_take_le rows (by omega)
  last := by
    show Spec.off _ n ≤ rows.flatten.length
    rw [graphCsr_off_le _ _ _ _ _ hn]
    have := flatten_take_le rows (i := n - base) (j := max (n - base) rows.length) (by omega)
    rw [List.take_of_length_le (i := max (n - base) rows.length) (by omega)] at this
    exact this
  endpoints := rfl

theorem graphCsr_pairs (lw n base : Nat) (rows : List (List Nat)) (hn : n ≤ base + rows.length) :
    Spec.pairs (graphCsr lw n base rows : Csr W) = Spec.graphPairs base rows n := by
  unfold Spec.pairs Spec.graphPairs
  refine flatMap_congr' (fun v hv => ?_)
  have hv' : v < n := List.mem_range.mp hv
  congr 1
  by_cases h : v < base
  · rw [if_pos h]
    unfold Spec.row
    rw [graphCsr_off_zero _ _ _ _ _ (by omega), graphCsr_off_zero _ _ _ _ _ (by omega)]
    simp
  · rw [if_neg h]
    obtain ⟨k, rfl⟩ : ∃ k, v = base + k := ⟨v - base, by omega⟩
    have hk : k < rows.length := by omega
    rw [graphCsr_row (W := W) lw n base rows (List.getElem?_eq_getElem hk), Nat.add_sub_cancel_left, List.getD_eq_getElem?_getD,
      List.getElem?_eq_getElem hk]; rfl

theorem asGraph_used {μ : Mapping} {fn : List Byte} {ft : FileType} (h : Spec.AsGraph μ fn ft) : usedType μ fn 0 ft = .ok .graph := by
  rcases h with rfl | ⟨rfl, h1, h2⟩
  · rfl
  · have hmtx : ¬ str ".mtx" <:+ fn := by
      intro h
      have := List.suffix_of_suffix_length_le h h1 (by decide)
      revert this
      decide
    rw [usedType, if_pos rfl, C45_by_name _ _ _ (fun hh => h2 (by simpa using hh.1)), if_neg hmtx, if_pos h1]

theorem readCsr_asGraph (P : Params W) (hw : P.wk.wgt = false) {μ : Mapping} {fn : List Byte} {ft : FileType} (h : Spec.AsGraph μ fn ft)
    {o : M (Csr W × Nat)} (ho : (readCsr P μ fn 0 ft).Out o) :
    ∃ out, LoadGraph μ (8 * P.lb) (8 * P.ob) P.T out ∧ o = (out >>= fun c => .ok (c, 0)) := by
  unfold readCsr at ho
  rw [asGraph_used h] at ho
  obtain ⟨_, rfl, ho⟩ := ho
  simp only [reduceCtorEq, or_self, if_false, if_true, hw, Bool.false_eq_true] at ho
  obtain ⟨out, h1, h2⟩ := ho
  refine ⟨out, h1, ?_⟩
  cases out with
  | error e => exact h2
  | ok c => exact h2

/-- What `COO(fn)` does on a `.graph` file: load the CSR, then convert. -/
theorem readCoo_asGraph (P : Params W) (hw : P.wk.wgt = false) {μ : Mapping} {fn : List Byte} {ft : FileType} (h : Spec.AsGraph μ fn ft)
    {c : Csr W} (hc : ∀ out, LoadGraph μ (8 * P.lb) (8 * P.ob) P.T out → out = .ok c) (cfg : Cfg) (o : M (Coo W)) :
    (readCoo P cfg μ fn 0 ft).Out o ↔ (convertCsr (8 * P.ob) P.T P.stor cfg false c).Out o := by
  unfold readCoo
  rw [asGraph_used h]
  constructor
  · rintro ⟨_, rfl, ho⟩
    simp only [reduceCtorEq, or_self, or_true, if_false, if_true] at ho
    obtain ⟨o1, h1, h2⟩ := ho
    obtain ⟨out, h3, rfl⟩ := readCsr_asGraph P hw (ft := .graph) (.inl rfl) h1
    rw [hc out h3, ok_bind, hw] at h2
    exact h2
  · intro ho
    refine ⟨_, rfl, ?_⟩
    simp only [reduceCtorEq, or_self, or_true, if_false, if_true]
    refine ⟨.ok (c, 0), ?_, by rw [hw]; exact ho⟩
    unfold readCsr
    refine ⟨.ok .graph, rfl, ?_⟩
    simp only [reduceCtorEq, or_self, if_false, if_true, hw, Bool.false_eq_true]
    obtain ⟨out, hout⟩ := loadGraph_exists (W := W) μ (8 * P.lb) (8 * P.ob) P.T
    have := hc out hout
    subst this
    exact ⟨_, hout, rfl⟩

theorem quiet_csr {μ : Mapping} (hpad : 0 < μ.pad) {lw ow n m : Nat} {rows : List (List Nat)} {body : List (List Byte)}
    {tail : List Byte} (h : GraphQuiet μ.bytes lw ow n m rows body tail) {base : Nat}
    (hb : QuietZero body ∧ base = 0 ∨ ¬ QuietZero body ∧ base = 1) {kept : List (List Nat)} (hk : kept = rows.dropWhile List.isEmpty)
    (he : kept.flatten.length = m ∨ kept.flatten.length = 2 * m) (hn : n ≤ base + kept.length) {T : Nat} (hT : 0 < T) (out : M (Csr W))
    (hrun : LoadGraph μ lw ow T out) : out = .ok (graphCsr lw n base kept) := by
  subst hk
  exact (graphQuiet_result hpad h hT hb hrun).trans (graphResult_ok h.fitM he hn)

/-- C107: a CSR loaded from a `.graph` file can be used as above: its first `n` rows are in order.  For each file with the number of
edges of its header and with enough lines, with comments that are not followed by another, 0-based or 1-based. -/
theorem C107_loaded (μ : Mapping) (hpad : 0 < μ.pad) (lw ow n m : Nat) (rows : List (List Nat)) (body : List (List Byte))
    (tail : List Byte) (h : GraphQuiet μ.bytes lw ow n m rows body tail) (base : Nat)
    (hb : QuietZero body ∧ base = 0 ∨ ¬ QuietZero body ∧ base = 1) (kept : List (List Nat)) (hk : kept = rows.dropWhile List.isEmpty)
    (he : kept.flatten.length = m ∨ kept.flatten.length = 2 * m) (hn : n ≤ base + kept.length) (T : Nat) (hT : 0 < T) (out : M (Csr W))
    (hrun : LoadGraph μ lw ow T out) : ∃ c, out = .ok c ∧ Spec.LooseCsr c ∧ c.n = n ∧ c.m = kept.flatten.length ∧
      Spec.pairs c = Spec.graphPairs base kept n ∧ Spec.beyond c = (kept.drop (n - base)).flatten := by
  refine ⟨_, quiet_csr hpad h hb hk he hn hT out hrun, graphCsr_loose _ _ _ _ hn, rfl, rfl, graphCsr_pairs _ _ _ _ hn, ?_⟩
  unfold Spec.beyond
  rw [show (graphCsr lw n base kept : Csr W).n = n from rfl, graphCsr_off_le _ _ _ _ _ hn]
  show kept.flatten.drop _ = _
  conv => lhs; arg 2; rw [← List.take_append_drop (n - base) kept, List.flatten_append]
  rw [List.drop_left]

/-- C107: `COO(fn)` on a 0-based `.graph` file whose lines after the `n`-th are empty gives exactly the edges of the file, vertex by vertex,
with the flags applied. -/
theorem C107_zero_based_as_coo [Inhabited W] (P : Params W) (hP : P.wk.wgt = false) (hT : 0 < P.T) (cfg : Cfg) (hsl : cfg.sl = false)
    (hut : cfg.ut = true → cfg.sym = true) (μ : Mapping) (hpad : 0 < μ.pad) (fn : List Byte) (ft : FileType) (hg : Spec.AsGraph μ fn ft)
    (n m : Nat) (rows : List (List Nat)) (body : List (List Byte)) (tail : List Byte)
    (h : GraphQuiet μ.bytes (8 * P.lb) (8 * P.ob) n m rows body tail) (hb : QuietZero body)
    (kept : List (List Nat)) (hk : kept = rows.dropWhile List.isEmpty)
    (he : kept.flatten.length = m ∨ kept.flatten.length = 2 * m) (hn : n ≤ kept.length) (hrest : (kept.drop n).flatten = [])
    (hm : 2 * kept.flatten.length < 2 ^ (8 * P.ob)) :
    (readCoo P cfg μ fn 0 ft).All (fun r => r.n = n ∧ r.m = (if cfg.sym && !cfg.ut then 2 else 1) * kept.flatten.length ∧ r.x.length = r.m ∧ r.y.length = r.m ∧
      r.x.zip r.y = (Spec.graphPairs 0 kept n).flatMap (Spec.flagged cfg)) := by
  have hc := fun out => quiet_csr (W := W) hpad h (.inl ⟨hb, rfl⟩) hk he (by rw [Nat.zero_add]; exact hn) hT out
  intro o ho
  have ho := (readCoo_asGraph P hP hg hc cfg o).mp ho
  have hl := graphCsr_loose (W := W) (8 * P.lb) n 0 kept (by omega)
  have hmm : (graphCsr (8 * P.lb) n 0 kept : Csr W).m = kept.flatten.length := rfl
  obtain ⟨r, rfl, h1, h2, h3, h4, h5⟩ := C107_to_coo (8 * P.ob) P.T P.stor cfg hsl hut _ hl _ rfl
    (by rw [hmm]; split <;> omega) o ho
  refine ⟨r, rfl, h1, h2, h3, h4, ?_⟩
  rw [graphCsr_pairs _ _ _ _ (by omega)] at h5
  rw [← h5, List.take_of_length_le]
  rw [List.length_zip, h3, h4, Nat.min_self, h2, hmm, show (graphCsr (8 * P.lb) n 0 kept : Csr W).n = n from rfl,
    graphCsr_off_le _ _ _ _ _ (by omega), Nat.sub_zero]
  have : kept.flatten.length = (kept.take n).flatten.length := by
    conv => lhs; rw [← List.take_append_drop n kept, List.flatten_append, hrest, List.append_nil]
  rw [this]
  exact Nat.le_refl _

/-- C107 fails for 1-based files, whose vertices are 1, …, n: `COO(fn)` may give a COO in which the edges of vertex `n` (and those of the
lines after) are replaced by any other pairs: what was in the memory allocated. -/
theorem C107_one_based_as_coo_violated [Inhabited W] (P : Params W) (hP : P.wk.wgt = false) (hT : 0 < P.T) (hstor : P.stor ≠ .vector)
    (cfg : Cfg) (hsl : cfg.sl = false) (hut : cfg.ut = true → cfg.sym = true) (μ : Mapping) (hpad : 0 < μ.pad) (fn : List Byte)
    (ft : FileType) (hg : Spec.AsGraph μ fn ft) (n m : Nat) (rows : List (List Nat)) (body : List (List Byte)) (tail : List Byte)
    (h : GraphQuiet μ.bytes (8 * P.lb) (8 * P.ob) n m rows body tail) (hb : ¬ QuietZero body)
    (kept : List (List Nat)) (hk : kept = rows.dropWhile List.isEmpty)
    (he : kept.flatten.length = m ∨ kept.flatten.length = 2 * m) (hn : n ≤ 1 + kept.length)
    (f : Nat) (hf : f = if cfg.sym && !cfg.ut then 2 else 1) (hm : f * kept.flatten.length < 2 ^ (8 * P.ob))
    (junk : List (Nat × Nat)) (hj : junk.length = f * (kept.drop (n - 1)).flatten.length) :
    ∃ r, (readCoo P cfg μ fn 0 ft).Out (.ok r) ∧ r.n = n ∧ r.m = f * kept.flatten.length ∧
      r.x.zip r.y = (Spec.graphPairs 1 kept n).flatMap (Spec.flagged cfg) ++ junk := by
  have hc := fun out => quiet_csr (W := W) hpad h (.inr ⟨hb, rfl⟩) hk he hn hT out
  have hl := graphCsr_loose (W := W) (8 * P.lb) n 1 kept hn
  have hoff : Spec.off (graphCsr (8 * P.lb) n 1 kept : Csr W) n = (kept.take (n - 1)).flatten.length := graphCsr_off_le _ _ _ _ _ hn
  have hdrop : kept.flatten.length - (kept.take (n - 1)).flatten.length = (kept.drop (n - 1)).flatten.length := by
    conv => lhs; arg 1; rw [← List.take_append_drop (n - 1) kept, List.flatten_append, List.length_append]
    omega
  obtain ⟨r, h1, h2, h3, h4⟩ := C107_to_coo_violated (8 * P.ob) P.T hT P.stor hstor cfg hsl hut _ hl f hf hm junk
    (by rw [hj, ← hdrop, ← hoff]; rfl)
  exact ⟨r, (readCoo_asGraph P hP hg hc cfg _).mpr h1, h2, h3, by rw [h4, graphCsr_pairs _ _ _ _ hn]⟩

/-! ### `DiGraph` from a `.graph` file -/

theorem rows_filter (f : Nat → List Nat) (n v : Nat) (hv : v < n) :
    (((List.range n).flatMap (fun w => (f w).map (fun u => (w, u)))).filter (fun e => e.1 == v)).map (fun e => e.2) = f v := by
  induction n with
  | zero => omega
  | succ n ih =>
    rw [List.range_succ, List.flatMap_append, List.filter_append, List.map_append, List.flatMap_singleton]
    by_cases h : v = n
    · subst h
      have h1 : ((List.range v).flatMap (fun w => (f w).map (fun u => (w, u)))).filter (fun e => e.1 == v) = [] := by
        rw [List.filter_eq_nil_iff]
        intro e he
        obtain ⟨w, hw, he⟩ := List.mem_flatMap.mp he
        obtain ⟨u, _, rfl⟩ := List.mem_map.mp he
        have := List.mem_range.mp hw
        simp only [beq_iff_eq]; omega
      have h2 : ((f v).map (fun u => (v, u))).filter (fun e => e.1 == v) = (f v).map (fun u => (v, u)) :=
        List.filter_eq_self.mpr (fun e he => by obtain ⟨u, _, rfl⟩ := List.mem_map.mp he; simp)
      rw [h1, h2, List.map_map]
      exact List.map_id'' (fun _ => rfl) _
    · have h2 : ((f n).map (fun u => (n, u))).filter (fun e => e.1 == v) = [] := by
        rw [List.filter_eq_nil_iff]
        intro e he
        obtain ⟨u, _, rfl⟩ := List.mem_map.mp he
        simp only [beq_iff_eq]; omega
      rw [ih (by omega), h2, List.map_nil, List.append_nil]

/-- The entries of a graph without weights, as entries with some weight. -/
def withDefault [Inhabited W] (ps : List (Nat × Nat)) : List (Nat × Nat × W) := ps.map (fun p => (p.1, p.2, default))

theorem holds_withDefault [Inhabited W] {c : Coo W} {ps : List (Nat × Nat)} (hx : c.x.length = c.m) (hy : c.y.length = c.m) (h : c.x.zip c.y = ps) :
    Holds c false (withDefault ps) := by
  subst h
  have hl : (c.x.zip c.y).length = c.m := by rw [List.length_zip, hx, hy, Nat.min_self]
  refine ⟨by rw [withDefault, List.length_map, hl], ?_, ?_, by intro h; cases h⟩
  · rw [withDefault, List.map_map]
    exact (List.map_fst_zip (by omega)).symm
  · rw [withDefault, List.map_map]
    exact (List.map_snd_zip (by omega)).symm

/-- C107: `DiGraph(fn)` on a 0-based `.graph` file whose lines after the `n`-th are empty, with neighbors below `n`: the out graph has the
edges of the file, vertex by vertex, the in graph the reversed edges. -/
theorem C107_zero_based_as_digraph [Inhabited W] (P : Params W) (hP : P.wk.wgt = false) (hT : 0 < P.T)
    (μ : Mapping) (hpad : 0 < μ.pad) (fn : List Byte) (ft : FileType) (hg : Spec.AsGraph μ fn ft)
    (n m : Nat) (rows : List (List Nat)) (body : List (List Byte)) (tail : List Byte)
    (h : GraphQuiet μ.bytes (8 * P.lb) (8 * P.ob) n m rows body tail) (hb : QuietZero body)
    (kept : List (List Nat)) (hk : kept = rows.dropWhile List.isEmpty)
    (he : kept.flatten.length = m ∨ kept.flatten.length = 2 * m) (hn : n ≤ kept.length) (hrest : (kept.drop n).flatten = [])
    (hm : 2 * kept.flatten.length < 2 ^ (8 * P.ob)) (hlab : ∀ u ∈ kept.flatten, u < n) (hfit : Spec.OffsetsFit (8 * P.lb) n) :
    (readDiGraph P μ fn ft).All (fun g => g.outG.n = n ∧ g.inG.n = n ∧ Spec.ValidCsr g.outG false ∧ Spec.ValidCsr g.inG false ∧
      ∀ v, v < n → (Spec.row g.outG v).Perm (kept.getD v []) ∧
        (Spec.row g.inG v).Perm (((Spec.graphPairs 0 kept n).filter (fun e => e.2 == v)).map (fun e => e.1))) := by
  have hpl : ∀ p ∈ Spec.graphPairs 0 kept n, p.1 < n ∧ p.2 < n := by
    intro p hp
    obtain ⟨v, hv, hp⟩ := List.mem_flatMap.mp hp
    obtain ⟨u, hu, rfl⟩ := List.mem_map.mp hp
    refine ⟨List.mem_range.mp hv, hlab u ?_⟩
    rw [if_neg (Nat.not_lt_zero _), Nat.sub_zero] at hu
    have hv' : v < kept.length := by have := List.mem_range.mp hv; omega
    rw [List.getD_eq_getElem?_getD, List.getElem?_eq_getElem hv'] at hu
    exact List.mem_flatten.mpr ⟨_, List.getElem_mem hv', hu⟩
  have hplain : (Spec.graphPairs 0 kept n).flatMap (Spec.flagged {}) = Spec.graphPairs 0 kept n := by
    rw [show (Spec.flagged {}) = fun p : Nat × Nat => [p] from by funext p; rfl, List.flatMap_singleton']
  unfold readDiGraph
  refine R.All.step (asGraph_used hg) ?_
  rw [if_neg (by decide)]
  refine R.All.bind (C107_zero_based_as_coo P hP hT {} rfl (by simp) μ hpad fn ft hg n m rows body tail h hb kept hk he hn hrest hm) (fun r hr => ?_)
  obtain ⟨h1, h0, h2, h3, h4⟩ := hr
  rw [hplain] at h4
  have hh := holds_withDefault h2 h3 h4
  have h0' : r.m = kept.flatten.length := by rw [h0]; simp
  have hlen : (withDefault (W := W) (Spec.graphPairs 0 kept n)).length < 2 ^ (8 * P.ob) := by rw [← hh.m, h0']; omega
  rw [hP]
  refine (twoGraphs_rowsOf (lw := 8 * P.lb) (ow := 8 * P.ob) (T := P.T) hT (c := r) ⟨hh, h1, rfl, rfl⟩ ?_ hlen hfit).mono (fun g hgr => ?_)
  · intro e he
    obtain ⟨p, hp, rfl⟩ := List.mem_map.mp he
    exact hpl p hp
  · obtain ⟨⟨ho, _, _⟩, hi⟩ := hgr
    refine ⟨ho.size, hi.size, ho.valid, hi.valid, fun v hv => ⟨?_, ?_⟩⟩
    · refine (ho.rows v hv).trans (List.Perm.of_eq ?_)
      rw [withDefault, List.filter_map, List.map_map]
      refine (rows_filter _ n v hv).trans ?_
      rw [if_neg (Nat.not_lt_zero _), Nat.sub_zero]
    · refine (hi.rows v hv).trans (List.Perm.of_eq ?_)
      rw [Spec.transposed, withDefault, List.map_map, List.filter_map, List.map_map]
      rfl

theorem run_inc_outside {ow : Nat} {x : List Nat} : ∀ (l : List Nat) (a : List Nat) (k : Nat), (∀ v ∈ a, v ≤ k) → k + l.length < 2 ^ ow →
    (∀ e ∈ l, ∃ v, x[e]? = some v) → (∃ e ∈ l, ∃ v, x[e]? = some v ∧ a.length ≤ v) → runActs (incAct ow x) l a = .error .oob
  | [], _, _, _, _, _, ⟨_, h, _⟩ => by cases h
  | e :: l, a, k, hk, hl, hx, hex => by
    obtain ⟨v, hv⟩ := hx e (List.mem_cons_self ..)
    rw [runActs, incAct, load_ok hv, ok_bind]
    by_cases hva : v < a.length
    · have hd : a[v]? = some a[v] := List.getElem?_eq_getElem hva
      have hle := hk _ (List.getElem_mem hva)
      rw [List.length_cons] at hl
      rw [load_ok hd, ok_bind, if_pos (by omega), store, if_pos hva, ok_bind]
      refine run_inc_outside l _ (k + 1) ?_ (by omega) (fun e he => hx e (List.mem_cons_of_mem _ he)) ?_
      · intro w hw
        rcases List.mem_or_eq_of_mem_set hw with h | h
        · have := hk w h; omega
        · omega
      · obtain ⟨e', he', v', hv', hle'⟩ := hex
        rcases List.mem_cons.mp he' with rfl | he'
        · rw [hv] at hv'; injection hv' with hv'; omega
        · exact ⟨e', he', v', hv', by rw [List.length_set]; exact hle'⟩
    · have : load a v = .error .oob := by
        unfold load
        rw [List.getElem?_eq_none (by omega)]
      rw [this]; rfl

/-- Building a CSR from a COO with a row label that is not below `n()` accesses memory outside of the arrays, in every execution. -/
theorem convertCoo_outside {lw ow T : Nat} {wgt : Bool} {c : Coo W} (hx : c.x.length = c.m) (hm : c.m < 2 ^ ow)
    (h : ∃ v ∈ c.x, c.n ≤ v) : (convertCoo lw ow T wgt c).Outside := by
  unfold convertCoo
  refine R.Outside.after (Q := fun _ => True) (by rintro o ⟨a, _, rfl⟩; exact ⟨_, rfl, trivial⟩) (fun j _ => R.Outside.bind_left ?_)
  unfold countDegrees
  refine R.Outside.after (Q := fun _ => True) (by rintro o ⟨a, _, rfl⟩; exact ⟨_, rfl, trivial⟩) (fun jl _ => ?_)
  refine R.Outside.after (Q := fun _ => True) (by rintro o ⟨a, _, rfl⟩; exact ⟨_, rfl, trivial⟩) (fun js _ => ?_)
  refine R.Outside.after (Q := fun _ => True) (by rintro o ⟨a, _, rfl⟩; exact ⟨_, rfl, trivial⟩) (fun ja _ => ?_)
  refine R.Outside.after (Q := OmpFor c.n T) (R.All.choose (fun _ h => h)) (fun its0 hits0 => ?_)
  refine R.Outside.after (Q := fun all => all = alloc (fun _ => 0) c.n) (R.All.par (fun sched hs => ?_)) (fun all hall => ?_)
  · refine ⟨_, run_fill (vs := alloc (fun _ => 0) c.n) ?_ _ (by simp), rfl⟩
    refine hs.perm.trans ?_
    have e : (its0.map (fun vs => vs.map (fun v => (v, 0)))).flatten = its0.flatten.map (fun v => (v, 0)) := by
      rw [List.map_flatten]
    rw [e]
    refine (hits0.all.map _).trans (List.Perm.of_eq ?_)
    exact range_eq_blockActs (fun _ => 0) c.n
  subst hall
  refine R.Outside.after (Q := OmpFor c.m T) (R.All.choose (fun _ h => h)) (fun its1 hits1 => R.Outside.bind_left ?_)
  rintro o ⟨sched, hs, rfl⟩
  have hp : sched.Perm (List.range c.m) := hs.perm.trans hits1.all
  refine run_inc_outside sched _ 0 ?_ ?_ ?_ ?_
  · intro v hv
    obtain ⟨_, _, rfl⟩ := List.mem_map.mp hv
    exact Nat.le_refl _
  · rw [hp.length_eq, List.length_range]; omega
  · intro e he
    have := List.mem_range.mp (hp.mem_iff.mp he)
    exact ⟨_, List.getElem?_eq_getElem (by omega)⟩
  · obtain ⟨v, hv, hle⟩ := h
    obtain ⟨e, he, rfl⟩ := List.getElem_of_mem hv
    exact ⟨e, hp.mem_iff.mpr (List.mem_range.mpr (by omega)), _, List.getElem?_eq_getElem he, by rw [alloc_length]; exact hle⟩

theorem fromCoo_outside {lw ow T : Nat} {c : Coo W} (hx : c.x.length = c.m) (hy : c.y.length = c.m) (hm : c.m < 2 ^ ow)
    (h : ∃ v ∈ c.y, c.n ≤ v) : (fromCoo lw ow T false c).Outside := by
  unfold fromCoo
  refine R.Outside.after (copyCoo_all hx hy (by intro h; cases h)) (fun d hd => R.Outside.bind_left ?_)
  subst hd
  exact convertCoo_outside (c := transposeCoo _) hy hm h

theorem matrix_outside {lw ow T : Nat} {c : Coo W} (hx : c.x.length = c.m) (hy : c.y.length = c.m) (hm : c.m < 2 ^ ow)
    (h : ∃ v ∈ c.y, c.n ≤ v) : (matrixFromCoo lw ow T false c).Outside := by
  unfold matrixFromCoo
  refine R.Outside.after (copyCoo_all hx hy (by intro h; cases h)) (fun d hd => R.Outside.bind_left ?_)
  subst hd
  exact convertCoo_outside (c := transposeCoo _) hy hm h

/-- C107 fails: building a `DiGraph` or `Matrix` from a 1-based `.graph` file in which the neighbor `n` (the last vertex) of another vertex
appears, as in every 1-based file of an undirected graph without isolated vertices, accesses memory outside of its arrays, in every execution. -/
theorem C107_one_based_as_digraph_violated [Inhabited W] (P : Params W) (hP : P.wk.wgt = false) (hT : 0 < P.T)
    (μ : Mapping) (hpad : 0 < μ.pad) (fn : List Byte) (ft : FileType) (hg : Spec.AsGraph μ fn ft) (n m : Nat) (rows : List (List Nat))
    (body : List (List Byte)) (tail : List Byte) (h : GraphQuiet μ.bytes (8 * P.lb) (8 * P.ob) n m rows body tail)
    (hb : ¬ QuietZero body) (kept : List (List Nat)) (hk : kept = rows.dropWhile List.isEmpty)
    (he : kept.flatten.length = m ∨ kept.flatten.length = 2 * m) (hn : n ≤ 1 + kept.length)
    (hm : kept.flatten.length < 2 ^ (8 * P.ob)) (v : Nat) (hv : (v, n) ∈ Spec.graphPairs 1 kept n) :
    (∀ o, (readDiGraph P μ fn ft).Out o → o = .error .oob) ∧
      (Spec.AsGraph μ fn .auto → ∀ o, (readMatrix P μ fn).Out o → o = .error .oob) := by
  have hc := fun out => quiet_csr (W := W) hpad h (.inr ⟨hb, rfl⟩) hk he hn hT out
  have hl := graphCsr_loose (W := W) (8 * P.lb) n 1 kept hn
  have hcoo : ∀ ft, Spec.AsGraph μ fn ft →
      (readCoo P {} μ fn 0 ft).All (fun r => r.n = n ∧ r.m = kept.flatten.length ∧ r.x.length = r.m ∧ r.y.length = r.m ∧ n ∈ r.y) := by
    intro ft hg o ho
    have ho := (readCoo_asGraph P hP hg hc {} o).mp ho
    obtain ⟨r, rfl, h1, h2, h3, h4, h5⟩ := C107_to_coo (8 * P.ob) P.T P.stor {} rfl (by simp) _ hl 1 rfl
      (by rw [Nat.one_mul]; exact hm) o ho
    refine ⟨r, rfl, h1, by rw [h2, Nat.one_mul]; rfl, h3, h4, ?_⟩
    rw [graphCsr_pairs _ _ _ _ hn] at h5
    have hmem : (v, n) ∈ (Spec.graphPairs 1 kept n).flatMap (Spec.flagged {}) := List.mem_flatMap.mpr ⟨_, hv, by simp [Spec.flagged]⟩
    rw [← h5] at hmem
    exact (List.of_mem_zip (List.mem_of_mem_take hmem)).2
  refine ⟨?_, fun ha => ?_⟩
  · show R.Outside _
    unfold readDiGraph
    refine R.Outside.step (asGraph_used hg) ?_
    rw [if_neg (by decide)]
    refine R.Outside.after (hcoo ft hg) (fun r hr => ?_)
    obtain ⟨h1, h2, h3, h4, h5⟩ := hr
    rw [hP]
    exact fromCoo_outside h3 h4 (by rw [h2]; exact hm) ⟨n, h5, by rw [h1]; exact Nat.le_refl _⟩
  · show R.Outside _
    unfold readMatrix
    refine R.Outside.after (hcoo .auto ha) (fun r hr => ?_)
    obtain ⟨h1, h2, h3, h4, h5⟩ := hr
    rw [hP]
    exact matrix_outside h3 h4 (by rw [h2]; exact hm) ⟨n, h5, by rw [h1]; exact Nat.le_refl _⟩

/-! ### The hypotheses can be met -/

/-- A path of three vertices, numbered from 1. -/
def exPath : Mapping := ⟨str "3 2\n2\n1 3\n2\n", 5⟩

theorem exPath_quiet : GraphQuiet exPath.bytes 32 64 3 2 [[2], [1, 3], [2]] [str "2", str "1 3", str "2"] [] where
  file := ⟨[], str "3 2", by decide +kernel, by decide +kernel, [], by decide +kernel⟩
  quiet := by
    refine ⟨by decide +kernel, by decide +kernel, ?_, rfl⟩
    intro i l l' h1 h2 hc
    have hi := (List.getElem?_eq_some_iff.mp h1).1
    have : ∀ i, i < 3 → ∀ l ∈ ([str "2", str "1 3", str "2"][i]?).toList, Spec.comment l = [] := by decide +kernel
    exact absurd (this i hi l (by rw [h1]; simp)) hc
  adj := by decide +kernel
  last := by decide +kernel
  labels := by decide
  fitRows := by decide
  fitN := by decide
  fitM := by decide
  fitInts := by decide

theorem exPath_not_zero : ¬ QuietZero [str "2", str "1 3", str "2"] := by
  rintro ⟨l, hl, hz⟩
  have : ∀ l ∈ [str "2", str "1 3", str "2"], [48] ∉ Spec.digitRuns (Spec.stripComment l) := by decide +kernel
  exact this l hl hz

/-- The CSR of the path: its array of offsets has an entry too many, and the edge of the last vertex is beyond its rows. -/
def exPathCsr : Csr Unit := graphCsr 32 3 1 [[2], [1, 3], [2]]

example : Spec.LooseCsr exPathCsr ∧ Spec.beyond exPathCsr = [2] ∧ exPathCsr.offsets = [0, 0, 1, 3, 4] ∧ (∀ u ∈ exPathCsr.endpoints, u + 1 < 2 ^ 32) ∧
    Spec.OffsetsFit 32 exPathCsr.n ∧ 2 * exPathCsr.m < 2 ^ 64 ∧ Spec.pairs exPathCsr = [(1, 2), (2, 1), (2, 3)] :=
  ⟨graphCsr_loose _ _ _ _ (by decide), by decide, by decide, by decide, .inr (by decide), by decide, by decide⟩

example : Spec.FitsCsr 4 8 false (codecNat 1 (by decide)) 
    { offsets := [0, 0, 1, 3], endpoints := [2, 1, 3, 2], weights := [], n := 3, m := 4, nrows := 4, ncols := 4 } :=
  ⟨⟨rfl, by decide⟩, ⟨rfl, by decide⟩, ⟨rfl, by intro v hv; cases hv⟩, by decide, by decide, by decide, by decide, .inr (by decide)⟩

example : Spec.AsGraph exPath (str "p.graph") .auto := .inr ⟨rfl, by decide, by decide⟩

/-- The path as COO may be wrong, and is an error as a `DiGraph`. -/
example (P : Params Unit) (hw : P.wk.wgt = false) (hl : P.lb = 4) (ho : P.ob = 8) (hT : 0 < P.T) (hs : P.stor = .pointer) :
    (∃ r, (readCoo P {} exPath (str "p.graph") 0 .auto).Out (.ok r) ∧ r.x.zip r.y = [(1, 2), (2, 1), (2, 3), (7, 1000)]) ∧
    (∀ o, (readDiGraph P exPath (str "p.graph") .auto).Out o → o = .error .oob) ∧
    ∀ o, (readMatrix P exPath (str "p.graph")).Out o → o = .error .oob := by
  have hq : GraphQuiet exPath.bytes (8 * P.lb) (8 * P.ob) 3 2 [[2], [1, 3], [2]] [str "2", str "1 3", str "2"] [] := by
    rw [hl, ho]; exact exPath_quiet
  have hg : Spec.AsGraph exPath (str "p.graph") .auto := .inr ⟨rfl, by decide, by decide⟩
  have hd := C107_one_based_as_digraph_violated P hw hT exPath (by decide) _ _ hg 3 2 _ _ _ hq exPath_not_zero [[2], [1, 3], [2]] rfl
    (.inr rfl) (by decide) (by rw [ho]; decide) 2 (by decide)
  refine ⟨?_, hd.1, hd.2 hg⟩
  obtain ⟨r, h1, _, _, h2⟩ := C107_one_based_as_coo_violated P hw hT (by rw [hs]; decide) {} rfl (by simp) exPath (by decide) _ _ hg 3 2 _ _ _ hq
    exPath_not_zero [[2], [1, 3], [2]] rfl (.inr rfl) (by decide) 1 rfl (by rw [ho]; decide) [(7, 1000)] rfl
  exact ⟨r, h1, h2⟩

/-- The hypotheses of the theorems on 0-based files hold for the project's file with a triangle and empty lines. -/
example : GraphQuiet exTriMessy.bytes 32 64 3 6 exTriMessyRows exTriMessyBody [] ∧ QuietZero exTriMessyBody ∧
    [[1, 2], [0, 2], [0, 1], [], [], [], []] = exTriMessyRows.dropWhile List.isEmpty ∧ 3 ≤ exTriMessyRows.length ∧
    (exTriMessyRows.drop 3).flatten = [] ∧ (∀ u ∈ exTriMessyRows.flatten, u < 3) ∧ Spec.OffsetsFit 32 3 :=
  ⟨exTriMessy_quiet, ⟨str "0 2                 ", by decide +kernel, by decide +kernel⟩, by decide, by decide, by decide, by decide, .inr (by decide)⟩

end Pigo
