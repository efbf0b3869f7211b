import Verif.Tests.Data
import Verif.Props.EdgeList2
import Verif.Props.CrossFile
import Verif.Props.MatrixMarket
import Verif.Props.Write

/-!
# The project's tests of COO (tests/coo)

Every `EQ` of the tests, for the test's own data file, with any number of threads, any schedule and any padding; from the
general theorems.  The tests use 4-byte labels and ordinals (`int` or `uint32_t`) unless noted.
-/

namespace Pigo.Tests

/-- `COO<L, O, …>(fn, EDGE_LIST)`, labels of `lw` and ordinals of `ow` bits: what it holds. -/
theorem el {bs : List Byte} (es : List (Nat × Nat)) (hl : ∀ l ∈ Spec.lines bs, Spec.ints l = [] ∨ (Spec.edge l).isSome)
    (hlast : Spec.ints ((Spec.lines bs).getLast (Spec.lines_ne_nil bs)) = []) (hes : Spec.edges bs = es)
    (cfg : Cfg) (lw ow : Nat) (hlab : ∀ e ∈ es, e.1 < 2 ^ lw ∧ e.2 < 2 ^ lw) (hm : (storedAll cfg (es.map unw)).length < 2 ^ ow)
    {pad T : Nat} (hpad : 0 < pad) (hT : 0 < T) {out : M (Coo Unit)} (hrun : LoadEdgeList ⟨bs, pad⟩ lw ow cfg wNone T out) :
    out = .ok (cooOf lw cfg false (es.map unw)) := by
  subst hes
  refine load_unweighted (μ := ⟨bs, pad⟩) hpad ⟨fun l h => ?_, hlast⟩ hlab cfg hT hm hrun
  rcases hl l h with h | h
  · exact .inl h
  · exact .inr (Option.isSome_iff_exists.mp h)

/-! ### test_coo_read.cpp -/

theorem cleanEl_load (cfg : Cfg) (lw ow : Nat) (hlw : 4 ≤ lw) (how : 5 ≤ ow) {pad T : Nat} (hpad : 0 < pad) (hT : 0 < T) {out : M (Coo Unit)}
    (hrun : LoadEdgeList ⟨cleanEl, pad⟩ lw ow cfg wNone T out) :
    out = .ok (cooOf lw cfg false [(0, 1, ()), (1, 2, ()), (2, 3, ()), (3, 4, ()), (4, 5, ()), (5, 0, ()), (2, 9, ())]) := by
  refine el [(0, 1), (1, 2), (2, 3), (3, 4), (4, 5), (5, 0), (2, 9)] (by decide +kernel) (by decide +kernel) (by decide +kernel) cfg lw ow ?_ ?_
    hpad hT hrun
  · have h : 2 ^ 4 ≤ 2 ^ lw := Nat.pow_le_pow_right (by decide) hlw
    have : ∀ e ∈ [(0, 1), (1, 2), (2, 3), (3, 4), (4, 5), (5, 0), (2, 9)], e.1 < 2 ^ 4 ∧ e.2 < 2 ^ 4 := by decide
    intro e he
    have := this e he
    omega
  · have h : 2 ^ 5 ≤ 2 ^ ow := Nat.pow_le_pow_right (by decide) how
    clear hrun
    rcases cfg with ⟨s, u, l⟩
    have : (storedAll ⟨s, u, l⟩ ([(0, 1), (1, 2), (2, 3), (3, 4), (4, 5), (5, 0), (2, 9)].map unw)).length < 2 ^ 5 := by
      revert s u l; decide
    omega

/-- `read_clean_el_rptr`, `read_clean_el_vec`, `read_clean_el_sptr`. -/
example (pad T : Nat) (hpad : 0 < pad) (hT : 0 < T) (out : M (Coo Unit)) (hrun : LoadEdgeList ⟨cleanEl, pad⟩ 32 32 {} wNone T out) :
    ∃ c, out = .ok c ∧ c.m = 7 ∧ c.n = 10 ∧ c.x = [0, 1, 2, 3, 4, 5, 2] ∧ c.y = [1, 2, 3, 4, 5, 0, 9] :=
  ⟨_, cleanEl_load {} 32 32 (by decide) (by decide) hpad hT hrun, by decide⟩

theorem without_load (cfg : Cfg) {pad T : Nat} (hpad : 0 < pad) (hT : 0 < T) {out : M (Coo Unit)}
    (hm : (storedAll cfg ([(5, 3), (2, 1), (9, 8), (5, 6), (6, 7), (7, 8), (8, 9), (3, 0), (3, 8), (3, 9), (3, 4), (5, 2)].map unw)).length < 2 ^ 32)
    (hrun : LoadEdgeList ⟨withoutCommentsEl, pad⟩ 32 32 cfg wNone T out) :
    out = .ok (cooOf 32 cfg false
      ([(5, 3), (2, 1), (9, 8), (5, 6), (6, 7), (7, 8), (8, 9), (3, 0), (3, 8), (3, 9), (3, 4), (5, 2)].map unw)) :=
  el _ (by decide +kernel) (by decide +kernel) (by decide +kernel) cfg 32 32 (by decide) hm hpad hT hrun

theorem with_load (cfg : Cfg) {pad T : Nat} (hpad : 0 < pad) (hT : 0 < T) {out : M (Coo Unit)}
    (hm : (storedAll cfg ([(5, 3), (2, 1), (9, 8), (5, 6), (6, 7), (7, 8), (8, 9), (3, 0), (3, 8), (3, 9), (3, 4), (5, 2)].map unw)).length < 2 ^ 32)
    (hrun : LoadEdgeList ⟨withCommentsEl, pad⟩ 32 32 cfg wNone T out) :
    out = .ok (cooOf 32 cfg false
      ([(5, 3), (2, 1), (9, 8), (5, 6), (6, 7), (7, 8), (8, 9), (3, 0), (3, 8), (3, 9), (3, 4), (5, 2)].map unw)) :=
  el _ (by decide +kernel) (by decide +kernel) (by decide +kernel) cfg 32 32 (by decide) hm hpad hT hrun

/-- `read_dirty_clean`: the file with comments, blank lines and extra columns is loaded as the one without. -/
example (pad T pad' T' : Nat) (hpad : 0 < pad) (hT : 0 < T) (hpad' : 0 < pad') (hT' : 0 < T') (out out' : M (Coo Unit))
    (hrun : LoadEdgeList ⟨withCommentsEl, pad⟩ 32 32 {} wNone T out) (hrun' : LoadEdgeList ⟨withoutCommentsEl, pad'⟩ 32 32 {} wNone T' out') :
    out = out' ∧ ∃ c, out = .ok c ∧ c.m = 12 ∧ c.n = 10 := by
  rw [with_load {} hpad hT (by decide) hrun, without_load {} hpad' hT' (by decide) hrun']
  exact ⟨rfl, _, rfl, by decide⟩

/-! ### test_coo_selfloop.cpp, test_coo_sym.cpp, test_coo_ut.cpp -/

theorem selfloop_load (cfg : Cfg) {pad T : Nat} (hpad : 0 < pad) (hT : 0 < T) {out : M (Coo Unit)}
    (hrun : LoadEdgeList ⟨selfloopEl, pad⟩ 32 32 cfg wNone T out) :
    out = .ok (cooOf 32 cfg false ([(0, 1), (0, 2), (0, 3), (1, 0), (1, 1), (2, 1), (2, 2), (3, 0), (3, 2), (3, 3)].map unw)) := by
  refine el _ (by decide +kernel) (by decide +kernel) (by decide +kernel) cfg 32 32 (by decide) ?_ hpad hT hrun
  clear hrun
  rcases cfg with ⟨s, u, l⟩
  revert s u l; decide

theorem ut_load (cfg : Cfg) {pad T : Nat} (hpad : 0 < pad) (hT : 0 < T) {out : M (Coo Unit)}
    (hrun : LoadEdgeList ⟨utEl, pad⟩ 32 32 cfg wNone T out) :
    out = .ok (cooOf 32 cfg false
      ([(5, 6), (4, 4), (4, 4), (3, 4), (6, 5), (1, 2), (1, 1), (1, 0), (0, 2), (0, 1), (9, 8), (8, 7), (7, 6), (6, 5)].map unw)) := by
  refine el _ (by decide +kernel) (by decide +kernel) (by decide +kernel) cfg 32 32 (by decide) ?_ hpad hT hrun
  clear hrun
  rcases cfg with ⟨s, u, l⟩
  revert s u l; decide

/-- `read_with_sl` and `read_without_sl` of test_coo_selfloop.cpp. -/
example (pad T : Nat) (hpad : 0 < pad) (hT : 0 < T) (out : M (Coo Unit)) :
    (LoadEdgeList ⟨selfloopEl, pad⟩ 32 32 {} wNone T out → ∃ c, out = .ok c ∧ c.m = 10 ∧ c.n = 4 ∧
      c.x = [0, 0, 0, 1, 1, 2, 2, 3, 3, 3] ∧ c.y = [1, 2, 3, 0, 1, 1, 2, 0, 2, 3]) ∧
    (LoadEdgeList ⟨selfloopEl, pad⟩ 32 32 { sl := true } wNone T out → ∃ c, out = .ok c ∧ c.m = 7 ∧ c.n = 4 ∧
      c.x = [0, 0, 0, 1, 2, 3, 3] ∧ c.y = [1, 2, 3, 0, 1, 0, 2]) :=
  ⟨fun h => ⟨_, selfloop_load _ hpad hT h, by decide⟩, fun h => ⟨_, selfloop_load _ hpad hT h, by decide⟩⟩

/-- `read_clean`, `read_with_sl` and `read_without_sl` of test_coo_sym.cpp. -/
example (pad T : Nat) (hpad : 0 < pad) (hT : 0 < T) (out : M (Coo Unit)) :
    (LoadEdgeList ⟨cleanEl, pad⟩ 32 32 { sym := true } wNone T out → ∃ c, out = .ok c ∧ c.m = 14 ∧ c.n = 10 ∧
      c.x = [0, 1, 1, 2, 2, 3, 3, 4, 4, 5, 5, 0, 2, 9] ∧ c.y = [1, 0, 2, 1, 3, 2, 4, 3, 5, 4, 0, 5, 9, 2]) ∧
    (LoadEdgeList ⟨selfloopEl, pad⟩ 32 32 { sym := true } wNone T out → ∃ c, out = .ok c ∧ c.m = 17 ∧ c.n = 4 ∧
      c.x = [0, 1, 0, 2, 0, 3, 1, 0, 1, 2, 1, 2, 3, 0, 3, 2, 3] ∧ c.y = [1, 0, 2, 0, 3, 0, 0, 1, 1, 1, 2, 2, 0, 3, 2, 3, 3]) ∧
    (LoadEdgeList ⟨selfloopEl, pad⟩ 32 32 { sym := true, sl := true } wNone T out → ∃ c, out = .ok c ∧ c.m = 14 ∧ c.n = 4 ∧
      c.x = [0, 1, 0, 2, 0, 3, 1, 0, 2, 1, 3, 0, 3, 2] ∧ c.y = [1, 0, 2, 0, 3, 0, 0, 1, 1, 2, 0, 3, 2, 3]) :=
  ⟨fun h => ⟨_, cleanEl_load _ 32 32 (by decide) (by decide) hpad hT h, by decide⟩, fun h => ⟨_, selfloop_load _ hpad hT h, by decide⟩,
    fun h => ⟨_, selfloop_load _ hpad hT h, by decide⟩⟩

/-- `ut`, `ut_sym`, `ut_sym_rsl` and `ut_rsl` of test_coo_ut.cpp. -/
example (pad T : Nat) (hpad : 0 < pad) (hT : 0 < T) (out : M (Coo Unit)) :
    (LoadEdgeList ⟨utEl, pad⟩ 32 32 { ut := true } wNone T out → ∃ c, out = .ok c ∧ c.m = 8 ∧ c.n = 7 ∧
      c.x = [5, 4, 4, 3, 1, 1, 0, 0] ∧ c.y = [6, 4, 4, 4, 2, 1, 2, 1]) ∧
    (LoadEdgeList ⟨utEl, pad⟩ 32 32 { sym := true, ut := true } wNone T out → ∃ c, out = .ok c ∧ c.m = 14 ∧ c.n = 10 ∧
      c.x = [5, 4, 4, 3, 5, 1, 1, 0, 0, 0, 8, 7, 6, 5] ∧ c.y = [6, 4, 4, 4, 6, 2, 1, 1, 2, 1, 9, 8, 7, 6]) ∧
    (LoadEdgeList ⟨utEl, pad⟩ 32 32 { sym := true, ut := true, sl := true } wNone T out → ∃ c, out = .ok c ∧ c.m = 11 ∧ c.n = 10 ∧
      c.x = [5, 3, 5, 1, 0, 0, 0, 8, 7, 6, 5] ∧ c.y = [6, 4, 6, 2, 1, 2, 1, 9, 8, 7, 6]) ∧
    (LoadEdgeList ⟨utEl, pad⟩ 32 32 { ut := true, sl := true } wNone T out → ∃ c, out = .ok c ∧ c.m = 5 ∧ c.n = 7 ∧
      c.x = [5, 3, 1, 0, 0] ∧ c.y = [6, 4, 2, 2, 1]) :=
  ⟨fun h => ⟨_, ut_load _ hpad hT h, by decide⟩, fun h => ⟨_, ut_load _ hpad hT h, by decide⟩,
    fun h => ⟨_, ut_load _ hpad hT h, by decide⟩, fun h => ⟨_, ut_load _ hpad hT h, by decide⟩⟩

/-! ### test_mm.cpp -/

/-- `read_simple`, `change_labs` (`set_n`, `set_nrows` and `set_ncols` assign the fields). -/
example (pad T : Nat) (hpad : 0 < pad) (hT : 0 < T) (out : M (Coo Unit)) (hrun : LoadMm ⟨sparseMtx, pad⟩ 32 32 {} wNone T out) :
    ∃ c, out = .ok c ∧ c.m = 3 ∧ c.n = 4 ∧ c.nrows = 3 ∧ c.ncols = 4 ∧ c.x = [1, 2, 2] ∧ c.y = [3, 3, 1] := by
  have hes : Spec.entriesOf Spec.entry0 [str "1 3 -4.0", str "2 3 -2.0", str "2 1 99.3", []] = [(1, 3, ()), (2, 3, ()), (2, 1, ())] := by
    decide +kernel
  obtain ⟨c, hc, hh, hm, h1, h2, h3⟩ := C21_matrix_market ⟨sparseMtx, pad⟩ hpad 32 32 T hT (R := 2) (C := 3) (N := 3)
    (body := [str "1 3 -4.0", str "2 3 -2.0", str "2 1 99.3", []])
    ⟨by show _ <+: sparseMtx; decide +kernel, by decide,
      [str "%%MatrixMarket matrix coordinate real general"], str "2 3 3", by show Spec.lines sparseMtx = _; decide +kernel,
      by decide +kernel, [], by decide +kernel⟩
    .none ⟨by decide +kernel, by decide +kernel⟩ (fun _ _ => trivial)
    (by rw [hes]; exact ⟨by decide, by decide, rfl, by decide, by decide, by decide⟩) out hrun
  rw [hes] at hh
  exact ⟨c, hc, hm, h3, h1, h2, hh.x, hh.y⟩

/-- `bigger_labs`. -/
example (pad T : Nat) (hpad : 0 < pad) (hT : 0 < T) (out : M (Coo Unit)) (hrun : LoadMm ⟨biggerMtx, pad⟩ 32 32 {} wNone T out) :
    ∃ c, out = .ok c ∧ c.n = 601 ∧ c.nrows = 501 ∧ c.ncols = 601 := by
  have hes : Spec.entriesOf Spec.entry0 [str "1 10", str "2 6", []] = [(1, 10, ()), (2, 6, ())] := by
    decide +kernel
  obtain ⟨c, hc, hh, hm, h1, h2, h3⟩ := C21_matrix_market ⟨biggerMtx, pad⟩ hpad 32 32 T hT (R := 500) (C := 600) (N := 2)
    (body := [str "1 10", str "2 6", []])
    ⟨by show _ <+: biggerMtx; decide +kernel, by decide,
      [str "%%MatrixMarket matrix coordinate real general"], str "500 600 2", by show Spec.lines biggerMtx = _; decide +kernel,
      by decide +kernel, [], by decide +kernel⟩
    .none ⟨by decide +kernel, by decide +kernel⟩ (fun _ _ => trivial)
    (by rw [hes]; exact ⟨by decide, by decide, rfl, by decide, by decide, by decide⟩) out hrun
  exact ⟨c, hc, h3, h1, h2⟩

/-- `fail_bad_label`: an entry outside of the declared dimensions, a banner that is cut; `fail_read_dense`. -/
example (pad T : Nat) (hpad : 0 < pad) (hT : 0 < T) (out : M (Coo Unit)) :
    (LoadMm ⟨sparseBadMtx, pad⟩ 32 32 {} wNone T out → out = .error .error) ∧
    (LoadMm ⟨partialMtx, pad⟩ 32 32 {} wNone T out → out = .error .nyi) ∧
    (LoadMm ⟨denseMtx, pad⟩ 32 32 {} wNone T out → out = .error .nyi) := by
  refine ⟨fun hrun => ?_, fun hrun => C22_no_banner _ 32 32 T {} wNone (by show ¬ _ <+: partialMtx; decide +kernel) out hrun,
    fun hrun => C22_no_banner _ 32 32 T {} wNone (by show ¬ _ <+: denseMtx; decide +kernel) out hrun⟩
  have hes : Spec.entriesOf Spec.entry0 [str "99 8 3.0", str "45 45 3.", []] = [(99, 8, ()), (45, 45, ())] := by
    decide +kernel
  refine C22_entry_outside ⟨sparseBadMtx, pad⟩ hpad 32 32 T hT (R := 2) (C := 2) (N := 2)
    (body := [str "99 8 3.0", str "45 45 3.", []])
    ⟨by show _ <+: sparseBadMtx; decide +kernel, by decide,
      [str "%%MatrixMarket matrix coordinate real general"], str "2 2 2", by show Spec.lines sparseBadMtx = _; decide +kernel,
      by decide +kernel, [], by decide +kernel⟩
    .none ⟨by decide +kernel, by decide +kernel⟩ (fun _ _ => trivial)
    (by rw [hes]; decide) (by decide) (by decide) (by rw [hes]; decide) (by rw [hes]; exact ⟨_, .head _, .inl (by decide)⟩) out hrun

/-! ### test_coo_write.cpp -/

/-- `use_shared_ptr` and `use_def`: the file written from with-comments.el is without-comments.el, 48 bytes. -/
example (pad T T' : Nat) (hpad : 0 < pad) (hT : 0 < T) (out : M (Coo Unit)) (hrun : LoadEdgeList ⟨withCommentsEl, pad⟩ 32 32 {} wNone T out) :
    ∃ c, out = .ok c ∧ (writeCoo T' wtNone c).All (fun bs => bs = withoutCommentsEl ∧ bs.length = 48) := by
  refine ⟨_, with_load {} hpad hT (by decide) hrun, ?_⟩
  have hh := cooOf_holds 32 {} false
    ([(5, 3), (2, 1), (9, 8), (5, 6), (6, 7), (7, 8), (8, 9), (3, 0), (3, 8), (3, 9), (3, 4), (5, 2)].map unw)
  rw [storedAll_plain] at hh
  refine (C46_coo_write T' wtNone _ _ .none _ _ hh (fun _ _ => trivial) (by decide)).mono (fun bs hbs => ?_)
  subst hbs
  exact ⟨by decide +kernel, by decide +kernel⟩

end Pigo.Tests
