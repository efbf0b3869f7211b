import Verif.Lemmas.Examples

/-!
# The example programs

C78 `clean_graph in out`, C79 `symmetrize in out`, C80 `find_edge in src dst`, run on a text edge list, for every number
of threads and every interleaving.  `cleanGraph P μ fn`: the bytes written, from the file `fn` with content `μ`.
-/

namespace Pigo

/-! ## reading and converting -/

theorem OffsetsFit.mono {lw n n' : Nat} (h : Spec.OffsetsFit lw n) (hn : n' ≤ n) : Spec.OffsetsFit lw n' := by
  rcases h with h | h
  · exact .inl h
  · exact .inr (by omega)

/-- `prims` are among the stored entries. -/
theorem prims_mem_stored {W : Type} {cfg : Cfg} {es : List (Nat × Nat × W)} {p : Nat × Nat × W} (h : p ∈ prims cfg es) :
    p ∈ storedAll cfg es := by
  unfold prims at h
  obtain ⟨e, he, h⟩ := List.mem_filterMap.mp h
  unfold storedAll
  exact List.mem_flatMap.mpr ⟨e, he, List.mem_of_mem_head? h⟩

theorem stored_ends {W : Type} {sym ut sl : Bool} {x y : Nat} {w : W} {s : Nat × Nat × W} (h : s ∈ Spec.stored sym ut sl (x, y, w)) :
    (s.1 = x ∧ s.2.1 = y) ∨ (s.1 = y ∧ s.2.1 = x) := by
  obtain ⟨s1, s2, s3⟩ := s
  revert h
  by_cases hxy : x = y <;> cases sym <;> cases ut <;> cases sl <;> simp [Spec.stored, hxy] <;> omega

theorem stored_le {cfg : Cfg} {es : List (Nat × Nat)} {s : Nat × Nat × Unit} (h : s ∈ storedAll cfg (es.map unw)) :
    s.1 ≤ Spec.maxLabel es ∧ s.2.1 ≤ Spec.maxLabel es := by
  unfold storedAll at h
  obtain ⟨e, he, hs⟩ := List.mem_flatMap.mp h
  obtain ⟨⟨a, b⟩, ha, rfl⟩ := List.mem_map.mp he
  have hl := le_maxLabel ha
  have := stored_ends hs
  dsimp only at hl
  omega

/-- The CSR built from the COO of an edge list. -/
theorem csr_of_stored {lw ow T : Nat} (hT : 0 < T) (hlw : 0 < lw) (cfg : Cfg) (es : List (Nat × Nat))
    (hmax : Spec.maxLabel es + 1 < 2 ^ lw) (hfit : Spec.OffsetsFit lw (Spec.maxLabel es + 1))
    (hm : (storedAll cfg (es.map unw)).length < 2 ^ ow) :
    (convertCoo lw ow T false (cooOf lw cfg false (es.map unw))).All (fun r => Spec.ValidCsr r false ∧
      r.n ≤ Spec.maxLabel es + 1 ∧ r.m = (storedAll cfg (es.map unw)).length ∧
      (∀ s ∈ storedAll cfg (es.map unw), s.1 < r.n) ∧ (∀ u ∈ r.endpoints, u ≤ Spec.maxLabel es) ∧
      ∀ v u, v < r.n → (Spec.row r v).count u = (storedAll cfg (es.map unw)).countP (fun e => e.1 == v && e.2.1 == u)) := by
  have hlab : ∀ e ∈ es.map unw, e.1 + 1 < 2 ^ lw ∧ e.2.1 + 1 < 2 ^ lw := by
    intro e he
    obtain ⟨a, ha, rfl⟩ := List.mem_map.mp he
    have := le_maxLabel ha
    simp only [unw]; omega
  have hh := cooOf_holds lw cfg false (es.map unw)
  obtain ⟨hx, _⟩ := cooOf_bound (cfg := cfg) (wgt := false) hlw hlab
  obtain ⟨d1, d2⟩ := cooOf_dims (cfg := cfg) (wgt := false) hlw hlab
  have hn : (cooOf lw cfg false (es.map unw)).n ≤ Spec.maxLabel es + 1 := by
    have e : (cooOf lw cfg false (es.map unw)).n = max (cooOf lw cfg false (es.map unw)).nrows (cooOf lw cfg false (es.map unw)).ncols := rfl
    rw [e, d1, d2]
    have m1 : Spec.maxOf ((prims cfg (es.map unw)).map (·.1)) < Spec.maxLabel es + 1 := by
      apply maxOf_lt (by omega)
      intro a ha
      obtain ⟨p, hp, rfl⟩ := List.mem_map.mp ha
      have := stored_le (prims_mem_stored hp)
      omega
    have m2 : Spec.maxOf ((prims cfg (es.map unw)).map (·.2.1)) < Spec.maxLabel es + 1 := by
      apply maxOf_lt (by omega)
      intro a ha
      obtain ⟨p, hp, rfl⟩ := List.mem_map.mp ha
      have := stored_le (prims_mem_stored hp)
      omega
    omega
  generalize cooOf lw cfg false (es.map unw) = c at hh hx hn
  have hl : ∀ e ∈ storedAll cfg (es.map unw), e.1 < c.n := fun e he => hx _ (by rw [hh.x]; exact List.mem_map_of_mem (f := fun e => e.1) he)
  refine (convertCoo_all (lw := lw) (ow := ow) hT hh hl (by rw [hh.m]; exact hm) (OffsetsFit.mono hfit hn)).mono (fun r hr => ?_)
  obtain ⟨h1, h2, h3, es', h4, _, h5⟩ := hr
  have hrn : r.n = c.n := by rw [h5.n]; simp [groupRows]
  refine ⟨h5.valid, by rw [hrn]; exact hn, by rw [h1, hh.m], fun s hs => by rw [hrn]; exact hl s hs, ?_, ?_⟩
  · intro u hu
    rw [h5.endpoints] at hu
    obtain ⟨p, hp, rfl⟩ := List.mem_map.mp hu
    obtain ⟨row, hrow, hp⟩ := List.mem_flatten.mp hp
    unfold groupRows at hrow
    obtain ⟨v, _, rfl⟩ := List.mem_map.mp hrow
    obtain ⟨e, he, rfl⟩ := List.mem_map.mp hp
    exact (stored_le (h4.mem_iff.mp (List.mem_filter.mp he).1)).2
  · intro v u hv
    exact fromEntries_count (n := c.n) (c := c) ⟨hrn, h1, h2, h3, es', h4, h5⟩ (by rw [← hrn]; exact hv) u

/-! ## rows and pairs -/

theorem pairs_count {W : Type} (c : Csr W) (a b : Nat) :
    (Spec.pairs c).count (a, b) = if a < c.n then (Spec.row c a).count b else 0 := by
  unfold Spec.pairs
  generalize c.n = n
  induction n with
  | zero => simp
  | succ n ih =>
    rw [List.range_succ, List.flatMap_append, List.count_append, ih]
    simp only [List.flatMap_cons, List.flatMap_nil, List.append_nil]
    have : ((Spec.row c n).map (fun u => (n, u))).count (a, b) = if a = n then (Spec.row c n).count b else 0 := by
      rw [List.count_eq_countP, List.countP_map]
      split
      · rename_i h; subst h
        rw [List.count_eq_countP]
        apply List.countP_congr
        intro u _
        simp
      · rename_i h
        rw [List.countP_eq_zero]
        intro u _
        simp; omega
    rw [this]
    by_cases h1 : a < n
    · rw [if_pos h1, if_neg (by omega), if_pos (by omega)]; omega
    · by_cases h2 : a = n
      · subst h2; rw [if_neg h1, if_pos rfl, if_pos (by omega)]; omega
      · rw [if_neg h1, if_neg h2, if_neg (by omega)]

theorem pairs_pairwise {W : Type} (c : Csr W) (R : Nat → Nat → Prop) (h : ∀ v, v < c.n → (Spec.row c v).Pairwise R) :
    (Spec.pairs c).Pairwise (fun p q => p.1 < q.1 ∨ (p.1 = q.1 ∧ R p.2 q.2)) := by
  rw [Spec.pairs, List.pairwise_flatMap]
  refine ⟨fun v hv => ?_, ?_⟩
  · rw [List.pairwise_map]
    exact (h v (List.mem_range.mp hv)).imp (fun hab => .inr ⟨rfl, hab⟩)
  · refine (range_pairwise _).imp ?_
    intro a b hab x hx y hy
    obtain ⟨u, _, rfl⟩ := List.mem_map.mp hx
    obtain ⟨v, _, rfl⟩ := List.mem_map.mp hy
    exact .inl hab

/-- Converting an unweighted CSR to a COO and writing it: the file of its pairs. -/
theorem write_pairs (ow T : Nat) (c : Csr Unit) (hc : Spec.ValidCsr c false) (hm : c.m < 2 ^ ow) (hne : Spec.pairs c ≠ []) :
    (convertCsr ow T .shared {} false c >>= fun out => writeCoo T wtNone out).All (fun bs => bs = Spec.edgeText (Spec.pairs c)) := by
  have hi := isCsr_of_valid hc ()
  generalize rowsOfCsr false () c = rows at hi
  refine R.All.bind (convertCsr_all (ow := ow) (T := T) (stor := .shared) (cfg := {}) hi (fun h => by cases h) rfl (fun h => by cases h)
    (by simpa [csrFactor] using hm)) ?_
  rintro out ⟨_, ho⟩
  have hxy := csrEntries_xy hi {}
  have hp : (Spec.pairs c).flatMap (fun p => csrEntry {} p.1 p.2) = Spec.pairs c := by
    have : (fun p : Nat × Nat => csrEntry {} p.1 p.2) = fun p => [p] := by funext p; rfl
    rw [this, List.flatMap_singleton']
  rw [hp] at hxy
  have hes : csrEntries {} rows = (Spec.pairs c).map unw := by
    rw [← hxy, List.map_map]
    symm
    exact List.map_id'' (fun e => rfl) _
  rw [hes] at ho
  refine (C46_coo_write T wtNone (fun _ => []) (fun _ => True) Printer.none out _ ho (fun _ _ => trivial) (by simpa using hne)).mono ?_
  rintro bs rfl
  rw [Spec.edgeText, List.flatMap_map]
  apply flatMap_congr'
  intro p _
  simp [Spec.cooLine, unw, wtNone]

theorem lexSorted_unique {ps qs : List (Nat × Nat)} (hp : Spec.LexSorted ps) (hq : Spec.LexSorted qs) (h : ∀ e, e ∈ ps ↔ e ∈ qs) :
    ps = qs := by
  have nd : ∀ {l : List (Nat × Nat)}, Spec.LexSorted l → l.Nodup := by
    intro l hl
    refine hl.imp ?_
    rintro a b hab rfl
    omega
  refine List.Perm.eq_of_pairwise (le := fun (p q : Nat × Nat) => p.1 < q.1 ∨ (p.1 = q.1 ∧ p.2 < q.2)) ?_ hp hq
    ((List.perm_ext_iff_of_nodup (nd hp) (nd hq)).mpr h)
  rintro ⟨a, b⟩ ⟨c, d⟩ _ _ h1 h2
  simp only at h1 h2
  omega

theorem lexWeak_unique {ps qs : List (Nat × Nat)} (hp : Spec.LexWeak ps) (hq : Spec.LexWeak qs) (h : ∀ e, ps.count e = qs.count e) :
    ps = qs := by
  refine List.Perm.eq_of_pairwise (le := fun (p q : Nat × Nat) => p.1 < q.1 ∨ (p.1 = q.1 ∧ p.2 ≤ q.2)) ?_ hp hq (List.perm_iff_count.mpr h)
  rintro ⟨a, b⟩ ⟨c, d⟩ _ _ h1 h2
  simp only at h1 h2
  rw [Prod.mk.injEq]
  omega

/-! ## what the flags keep -/

theorem clean_mem (es : List (Nat × Nat)) (a b : Nat) :
    (a, b, ()) ∈ storedAll cleanCfg (es.map unw) ↔ a < b ∧ ((a, b) ∈ es ∨ (b, a) ∈ es) := by
  unfold storedAll
  rw [List.flatMap_map, List.mem_flatMap]
  constructor
  · rintro ⟨⟨x, y⟩, h, hs⟩
    by_cases hxy : x = y
    · simp [Spec.stored, unw, cleanCfg, hxy] at hs
    · simp [Spec.stored, unw, cleanCfg, hxy] at hs
      rcases Nat.lt_or_gt_of_ne hxy with hlt | hlt
      · have h1 : a = x := by omega
        have h2 : b = y := by omega
        subst h1; subst h2
        exact ⟨hlt, .inl h⟩
      · have h1 : a = y := by omega
        have h2 : b = x := by omega
        subst h1; subst h2
        exact ⟨hlt, .inr h⟩
  · rintro ⟨hlt, h | h⟩
    · refine ⟨(a, b), h, ?_⟩
      have : ¬ a = b := by omega
      simp [Spec.stored, unw, cleanCfg, this]; omega
    · refine ⟨(b, a), h, ?_⟩
      have : ¬ b = a := by omega
      simp [Spec.stored, unw, cleanCfg, this]; omega

theorem clean_length (es : List (Nat × Nat)) : (storedAll cleanCfg (es.map unw)).length ≤ es.length := by
  unfold storedAll
  induction es with
  | nil => exact Nat.le_refl _
  | cons e es ih =>
    rw [List.map_cons, List.flatMap_cons, List.length_append, List.length_cons]
    have : (Spec.stored cleanCfg.sym cleanCfg.ut cleanCfg.sl (unw e)).length ≤ 1 := by
      obtain ⟨x, y⟩ := e
      by_cases hxy : x = y <;> simp [Spec.stored, unw, cleanCfg, hxy]
    omega

theorem sym_length (es : List (Nat × Nat)) : (storedAll symCfg (es.map unw)).length ≤ 2 * es.length ∧
    es.length ≤ (storedAll symCfg (es.map unw)).length := by
  unfold storedAll
  induction es with
  | nil => exact ⟨Nat.le_refl _, Nat.le_refl _⟩
  | cons e es ih =>
    rw [List.map_cons, List.flatMap_cons, List.length_append, List.length_cons]
    have : (Spec.stored symCfg.sym symCfg.ut symCfg.sl (unw e)).length ≤ 2 ∧ 1 ≤ (Spec.stored symCfg.sym symCfg.ut symCfg.sl (unw e)).length := by
      obtain ⟨x, y⟩ := e
      by_cases hxy : x = y <;> simp [Spec.stored, unw, symCfg, hxy]
    omega

theorem sym_count (es : List (Nat × Nat)) (a b : Nat) :
    (storedAll symCfg (es.map unw)).countP (fun e => e.1 == a && e.2.1 == b) =
      if a = b then es.count (a, a) else es.count (a, b) + es.count (b, a) := by
  unfold storedAll
  induction es with
  | nil => simp
  | cons e es ih =>
    rw [List.map_cons, List.flatMap_cons, List.countP_append, ih]
    obtain ⟨x, y⟩ := e
    simp only [List.count_cons]
    by_cases hxy : x = y
    · subst hxy
      by_cases hab : a = b
      · subst hab
        simp [Spec.stored, unw, symCfg, List.countP_cons]; omega
      · by_cases h1 : x = a
        · subst h1; simp [Spec.stored, unw, symCfg, hab, Ne.symm hab]
        · simp [Spec.stored, unw, symCfg, hab, h1]
    · by_cases hab : a = b
      · subst hab
        simp [Spec.stored, unw, symCfg, hxy, List.countP_cons]
        repeat' split
        all_goals omega
      · simp [Spec.stored, unw, symCfg, hxy, hab, List.countP_cons, Prod.mk.injEq]
        repeat' split
        all_goals omega

/-! ## C78 clean_graph -/

theorem R.All.and {α : Type} {p : R α} {P Q : α → Prop} (h1 : p.All P) (h2 : p.All Q) : p.All (fun a => P a ∧ Q a) := by
  intro o ho
  obtain ⟨a, rfl, ha⟩ := h1 o ho
  obtain ⟨b, hb, hq⟩ := h2 _ ho
  cases hb
  exact ⟨a, rfl, ha, hq⟩

/-- C78: `clean_graph` on a text edge list with an edge that is not a self loop writes every edge `a b` with `a < b` of
the undirected graph exactly once, in ascending order, and nothing else. -/
theorem C78_clean_graph_partial (P : Params Unit) (hwk : P.wk = wNone) (hT : 0 < P.T) (hlb : 0 < P.lb) (μ : Mapping) (hpad : 0 < μ.pad)
    (fn : List Byte) (h : Spec.PlainEdgeFile μ.bytes fn) (hmax : Spec.maxLabel (Spec.edges μ.bytes) + 1 < 2 ^ (8 * P.lb))
    (hfit : Spec.OffsetsFit (8 * P.lb) (Spec.maxLabel (Spec.edges μ.bytes) + 1))
    (hm : (Spec.edges μ.bytes).length < 2 ^ (8 * P.ob)) (hne : ∃ e ∈ Spec.edges μ.bytes, e.1 ≠ e.2) :
    (cleanGraph P μ fn).All (fun bs => ∃ ps, bs = Spec.edgeText ps ∧ Spec.LexSorted ps ∧
      ∀ a b, (a, b) ∈ ps ↔ a < b ∧ ((a, b) ∈ Spec.edges μ.bytes ∨ (b, a) ∈ Spec.edges μ.bytes)) := by
  have hlab : ∀ e ∈ Spec.edges μ.bytes, e.1 < 2 ^ (8 * P.lb) ∧ e.2 < 2 ^ (8 * P.lb) := by
    intro e he
    have := le_maxLabel he
    omega
  have hlen := clean_length (Spec.edges μ.bytes)
  unfold cleanGraph
  refine R.All.bind (readCoo_plain P hwk hT cleanCfg μ hpad fn h hlab (by omega)) ?_
  rintro _ rfl
  refine R.All.bind (csr_of_stored hT (by omega) cleanCfg (Spec.edges μ.bytes) hmax hfit (by omega)) ?_
  rintro c ⟨hc, hn, hcm, hbnd, hep, hcount⟩
  refine R.All.bind (R.All.and (C34_without_dups (8 * P.lb) P.T hT false (fun _ _ => False) c hc
    (fun u hu => by have := hep u hu; omega) (OffsetsFit.mono hfit hn))
    (C34_entry_set (8 * P.lb) P.T hT false (fun _ _ => False) c hc (fun u hu => by have := hep u hu; omega) (OffsetsFit.mono hfit hn))) ?_
  rintro r ⟨⟨⟨hv, hrn, _, _, hrow⟩, _⟩, hnd, hset, hlenp⟩
  have hmem : ∀ a b, (a, b) ∈ Spec.pairs r.2 ↔ a < b ∧ ((a, b) ∈ Spec.edges μ.bytes ∨ (b, a) ∈ Spec.edges μ.bytes) := by
    intro a b
    rw [hset, ← clean_mem, ← List.count_pos_iff, pairs_count]
    constructor
    · intro hp
      split at hp
      · rename_i ha
        rw [hcount a b ha, List.countP_pos_iff] at hp
        obtain ⟨⟨x, y, u⟩, he, hxy⟩ := hp
        simp at hxy
        obtain ⟨rfl, rfl⟩ := hxy
        exact he
      · omega
    · intro hp
      rw [if_pos (hbnd _ hp), hcount a b (hbnd _ hp), List.countP_pos_iff]
      exact ⟨_, hp, by simp⟩
  have hle : (Spec.pairs r.2).length ≤ (Spec.pairs c).length :=
    List.Nodup.length_le_of_subset hnd (fun e he => (hset e).mp he)
  have hcl : c.m = (Spec.pairs c).length := ValidCsr.pairs_length (isCsr_of_valid hc ())
  refine (write_pairs (8 * P.ob) P.T r.2 hv (by omega) ?_).mono ?_
  · obtain ⟨⟨x, y⟩, he, hxy⟩ := hne
    intro h0
    rcases Nat.lt_or_gt_of_ne hxy with hlt | hlt
    · have := (hmem x y).mpr ⟨hlt, .inl he⟩
      rw [h0] at this; cases this
    · have := (hmem y x).mpr ⟨hlt, .inr he⟩
      rw [h0] at this; cases this
  · rintro bs rfl
    exact ⟨_, rfl, pairs_pairwise r.2 (· < ·) (fun v hv' => (hrow v (by rw [← hrn]; exact hv')).1), hmem⟩

/-- C78: the output does not depend on the number of threads or the interleaving. -/
theorem C78_thread_independent (P P' : Params Unit) (hwk : P.wk = wNone) (hwk' : P'.wk = wNone) (hT : 0 < P.T) (hT' : 0 < P'.T)
    (hlb : 0 < P.lb) (hl : P'.lb = P.lb) (ho : P'.ob = P.ob) (μ : Mapping) (hpad : 0 < μ.pad)
    (fn : List Byte) (h : Spec.PlainEdgeFile μ.bytes fn) (hmax : Spec.maxLabel (Spec.edges μ.bytes) + 1 < 2 ^ (8 * P.lb))
    (hfit : Spec.OffsetsFit (8 * P.lb) (Spec.maxLabel (Spec.edges μ.bytes) + 1))
    (hm : (Spec.edges μ.bytes).length < 2 ^ (8 * P.ob)) (hne : ∃ e ∈ Spec.edges μ.bytes, e.1 ≠ e.2) (o o' : M (List Byte))
    (hr : (cleanGraph P μ fn).Out o) (hr' : (cleanGraph P' μ fn).Out o') : o = o' := by
  obtain ⟨_, rfl, ps, rfl, h1, h2⟩ := C78_clean_graph_partial P hwk hT hlb μ hpad fn h hmax hfit hm hne o hr
  obtain ⟨_, rfl, qs, rfl, h3, h4⟩ := C78_clean_graph_partial P' hwk' hT' (by rw [hl]; exact hlb) μ hpad fn h (by rw [hl]; exact hmax)
    (by rw [hl]; exact hfit) (by rw [ho]; exact hm) hne o' hr'
  rw [lexSorted_unique h1 h3 (fun ⟨a, b⟩ => by rw [h2, h4])]

/-- The text of a list of edges is a plain edge file of these edges. -/
theorem edgeText_plain (ps : List (Nat × Nat)) (fn : List Byte) (h1 : ¬ str ".mtx" <:+ fn) (h2 : ¬ str ".graph" <:+ fn) :
    Spec.PlainEdgeFile (Spec.edgeText ps) fn ∧ Spec.edges (Spec.edgeText ps) = ps := by
  have ht : Spec.edgeText ps = Spec.cooText false (fun _ => []) (ps.map unw) := by
    rw [Spec.edgeText, Spec.cooText, List.flatMap_map]
    apply flatMap_congr'
    intro p _
    simp [Spec.cooLine, unw]
  obtain ⟨g1, g2⟩ := cooText_entries (wgt := false) (txt := fun _ => []) (es := ps.map unw) (entry := Spec.entry0)
    (fun e _ hg => by cases hg) (fun e _ => entry0_words e _)
  rw [← ht] at g1 g2
  rw [entries_edges] at g2
  refine ⟨⟨⟨?_, g1.last⟩, ?_, h1, h2⟩, ?_⟩
  · intro l hl
    rcases g1.line l hl with h | h
    · exact .inl h
    · refine .inr ?_
      rw [Spec.entry0, Option.isSome_map] at h
      exact Option.isSome_iff_exists.mp h
  · cases ps with
    | nil => decide
    | cons p ps =>
      rw [Spec.edgeText, List.flatMap_cons]
      intro hpre
      have hd := showNat_digits p.1
      have hne := showNat_ne_nil p.1
      cases hs : Spec.showNat p.1 with
      | nil => exact absurd hs hne
      | cons d ds =>
        rw [hs] at hpre hd
        simp only [List.cons_append] at hpre
        have : (0x50 : Byte) = d := by
          exact ((List.cons_prefix_cons (a := (0x50 : Byte)) (l₁ := str "IGO")).mp hpre).1
        subst this
        have := hd 0x50 (List.mem_cons_self)
        revert this
        decide
  · have := congrArg (List.map (fun e : Nat × Nat × Unit => (e.1, e.2.1))) g2
    rw [List.map_map, List.map_map] at this
    have e : (fun e : Nat × Nat × Unit => (e.1, e.2.1)) ∘ unw = id := by funext p; rfl
    rwa [e, List.map_id, List.map_id] at this

theorem maxLabel_le {es : List (Nat × Nat)} {n : Nat} (h : ∀ e ∈ es, e.1 ≤ n ∧ e.2 ≤ n) : Spec.maxLabel es ≤ n := by
  have : Spec.maxOf (es.flatMap (fun e => [e.1, e.2])) < n + 1 := by
    apply maxOf_lt (by omega)
    intro a ha
    obtain ⟨e, he, ha⟩ := List.mem_flatMap.mp ha
    have := h e he
    simp only [List.mem_cons, List.not_mem_nil, or_false] at ha
    omega
  unfold Spec.maxLabel
  omega

/-- C78: cleaning the output again, with any number of threads, gives the same bytes. -/
theorem C78_idempotent (P P' : Params Unit) (hwk : P.wk = wNone) (hwk' : P'.wk = wNone) (hT : 0 < P.T) (hT' : 0 < P'.T)
    (hlb : 0 < P.lb) (hl : P'.lb = P.lb) (ho : P'.ob = P.ob) (μ : Mapping) (hpad : 0 < μ.pad)
    (fn fn' : List Byte) (h : Spec.PlainEdgeFile μ.bytes fn) (hmax : Spec.maxLabel (Spec.edges μ.bytes) + 1 < 2 ^ (8 * P.lb))
    (hfit : Spec.OffsetsFit (8 * P.lb) (Spec.maxLabel (Spec.edges μ.bytes) + 1))
    (hm : (Spec.edges μ.bytes).length < 2 ^ (8 * P.ob)) (hne : ∃ e ∈ Spec.edges μ.bytes, e.1 ≠ e.2)
    (h1 : ¬ str ".mtx" <:+ fn') (h2 : ¬ str ".graph" <:+ fn') (pad : Nat) (hpad' : 0 < pad) :
    (cleanGraph P μ fn).All (fun bs => (cleanGraph P' ⟨bs, pad⟩ fn').All (fun bs' => bs' = bs)) := by
  refine (C78_clean_graph_partial P hwk hT hlb μ hpad fn h hmax hfit hm hne).mono ?_
  rintro _ ⟨ps, rfl, hs, hmem⟩
  obtain ⟨g1, g2⟩ := edgeText_plain ps fn' h1 h2
  have hmx : Spec.maxLabel ps ≤ Spec.maxLabel (Spec.edges μ.bytes) := by
    apply maxLabel_le
    rintro ⟨a, b⟩ he
    rcases ((hmem a b).mp he).2 with h | h
    · exact le_maxLabel h
    · exact (le_maxLabel h).symm
  have hlen : ps.length ≤ (Spec.edges μ.bytes).length := by
    refine Nat.le_trans ?_ (clean_length (Spec.edges μ.bytes))
    rw [← List.length_map (as := storedAll cleanCfg _) (fun e => (e.1, e.2.1))]
    refine List.Nodup.length_le_of_subset ?_ ?_
    · refine hs.imp ?_
      rintro a b hab rfl
      omega
    · rintro ⟨a, b⟩ he
      exact List.mem_map.mpr ⟨(a, b, ()), (clean_mem _ a b).mpr ((hmem a b).mp he), rfl⟩
  have := C78_clean_graph_partial P' hwk' hT' (by rw [hl]; exact hlb) ⟨Spec.edgeText ps, pad⟩ hpad' fn' g1
    (by simp only [g2]; rw [hl]; omega) (by simp only [g2]; rw [hl]; exact OffsetsFit.mono hfit (by omega))
    (by simp only [g2]; rw [ho]; omega) (by
      simp only [g2]
      obtain ⟨⟨x, y⟩, he, hxy⟩ := hne
      rcases Nat.lt_or_gt_of_ne hxy with hlt | hlt
      · exact ⟨(x, y), (hmem x y).mpr ⟨hlt, .inl he⟩, hxy⟩
      · exact ⟨(y, x), (hmem y x).mpr ⟨hlt, .inr he⟩, Ne.symm hxy⟩)
  refine this.mono ?_
  rintro _ ⟨qs, rfl, hs', hmem'⟩
  simp only [g2] at hmem'
  rw [lexSorted_unique hs' hs]
  rintro ⟨a, b⟩
  rw [hmem']
  constructor
  · rintro ⟨hlt, h | h⟩
    · exact h
    · have := ((hmem b a).mp h).1
      omega
  · intro h
    exact ⟨((hmem a b).mp h).1, .inl h⟩

theorem R.All.bind_err {α β : Type} {p : R α} {k : α → R β} {P : α → Prop} {e : Fault} (hp : p.All P)
    (hk : ∀ a, P a → ∀ o, (k a).Out o → o = .error e) : ∀ o, (p >>= k).Out o → o = .error e := by
  rintro o ⟨o1, h1, h2⟩
  obtain ⟨a, rfl, ha⟩ := hp o1 h1
  exact hk a ha o h2

theorem R.Any.bindAll {α β : Type} {p : R α} {k : α → R β} {P : α → Prop} (hp : p.Any) (ha : p.All P)
    (hk : ∀ a, P a → (k a).Any) : (p >>= k).Any := by
  obtain ⟨o, ho⟩ := hp
  obtain ⟨a, rfl, h⟩ := ha o ho
  obtain ⟨o', ho'⟩ := hk a h
  exact ⟨o', _, ho, ho'⟩

theorem readCooFmt_any (P : Params Unit) (cfg : Cfg) (μ : Mapping) : (readCooFmt P cfg μ 0 .edgeList).Any := by
  unfold readCooFmt
  rw [if_neg (by decide), if_pos rfl]
  refine R.Any.bind ?_ (fun c => R.Any.pure _)
  exact load_exists μ _ _ cfg P.wk P.T ⟨fun _ => 0, fun _ => 0, fun _ => ()⟩

theorem readCoo_any (P : Params Unit) (cfg : Cfg) (μ : Mapping) (fn : List Byte) (h : Spec.PlainEdgeFile μ.bytes fn) :
    (readCoo P cfg μ fn 0 .auto).Any := by
  unfold readCoo
  refine R.Any.bindAll (R.Any.lift _) (R.All.lift (a := FileType.edgeList) (Q := fun t => t = FileType.edgeList) (plain_usedType h) rfl) ?_
  rintro _ rfl
  rw [if_pos (by decide)]
  exact R.Any.bind (readCooFmt_any P cfg μ) (fun c => R.Any.pure _)

theorem readCsr_any (P : Params Unit) (hT : 0 < P.T) (μ : Mapping) (fn : List Byte) (h : Spec.PlainEdgeFile μ.bytes fn) :
    (readCsr P μ fn 0 .auto).Any := by
  unfold readCsr
  refine R.Any.bindAll (R.Any.lift _) (R.All.lift (a := FileType.edgeList) (Q := fun t => t = FileType.edgeList) (plain_usedType h) rfl) ?_
  rintro _ rfl
  rw [if_pos (by decide)]
  exact R.Any.bind (readCooFmt_any P {} μ) (fun c => R.Any.bind (convertCoo_any hT _ _) (fun c => R.Any.pure _))

theorem false_strictWeak {α : Type} : Spec.StrictWeak (fun _ _ : α => False) :=
  ⟨fun _ h => h, fun _ _ _ h _ => h, fun _ _ _ _ _ h => h⟩

/-- `clean_graph` has an execution. -/
theorem cleanGraph_any (P : Params Unit) (hT : 0 < P.T) (μ : Mapping) (fn : List Byte) (h : Spec.PlainEdgeFile μ.bytes fn) :
    (cleanGraph P μ fn).Any :=
  R.Any.bind (readCoo_any P _ μ fn h) (fun _ => R.Any.bind (convertCoo_any hT _ _) (fun _ => R.Any.bind
    (withoutDups_any hT _ false_strictWeak _) (fun _ => R.Any.bind (convertCsr_any hT _ _ _ _)
      (fun c => (C46_write_runs P.T hT 8 wtNone c ⟨[], [], 0, 0⟩).1))))

/-- `symmetrize` has an execution. -/
theorem symmetrizeProg_any (P : Params Unit) (hT : 0 < P.T) (μ : Mapping) (fn : List Byte) (h : Spec.PlainEdgeFile μ.bytes fn) :
    (symmetrizeProg P μ fn).Any :=
  R.Any.bind (readCoo_any P _ μ fn h) (fun _ => R.Any.bind (convertCoo_any hT _ _) (fun _ => R.Any.bind
    (sortCsr_any hT _ false_strictWeak _) (fun _ => R.Any.bind (convertCsr_any hT _ _ _ _)
      (fun c => (C46_write_runs P.T hT 8 wtNone c ⟨[], [], 0, 0⟩).1))))

/-- C78: a graph of self loops only (or without edges) has an empty cleaned graph, but the program ends with an error instead
of writing an empty file. -/
theorem C78_only_loops_violated (P : Params Unit) (hwk : P.wk = wNone) (hT : 0 < P.T) (hlb : 0 < P.lb) (μ : Mapping) (hpad : 0 < μ.pad)
    (fn : List Byte) (h : Spec.PlainEdgeFile μ.bytes fn) (hmax : Spec.maxLabel (Spec.edges μ.bytes) + 1 < 2 ^ (8 * P.lb))
    (hfit : Spec.OffsetsFit (8 * P.lb) (Spec.maxLabel (Spec.edges μ.bytes) + 1))
    (hm : (Spec.edges μ.bytes).length < 2 ^ (8 * P.ob)) (hloop : ∀ e ∈ Spec.edges μ.bytes, e.1 = e.2) :
    (∀ o, (cleanGraph P μ fn).Out o → o = .error .error) ∧ (cleanGraph P μ fn).Any := by
  have hlab : ∀ e ∈ Spec.edges μ.bytes, e.1 < 2 ^ (8 * P.lb) ∧ e.2 < 2 ^ (8 * P.lb) := by
    intro e he
    have := le_maxLabel he
    omega
  have hlen := clean_length (Spec.edges μ.bytes)
  have hnil : storedAll cleanCfg ((Spec.edges μ.bytes).map unw) = [] := by
    rw [List.eq_nil_iff_forall_not_mem]
    rintro ⟨a, b, ⟨⟩⟩ hab
    obtain ⟨hlt, h | h⟩ := (clean_mem _ a b).mp hab
    · have := hloop _ h; simp only at this; omega
    · have := hloop _ h; simp only at this; omega
  have hread := readCoo_plain P hwk hT cleanCfg μ hpad fn h hlab (by omega)
  refine ⟨?_, ?_⟩
  · unfold cleanGraph
    refine R.All.bind_err hread ?_
    rintro _ rfl
    refine R.All.bind_err (csr_of_stored hT (by omega) cleanCfg (Spec.edges μ.bytes) hmax hfit (by omega)) ?_
    rintro c ⟨hc, hn, hcm, hbnd, hep, hcount⟩
    rw [hnil] at hcm
    refine R.All.bind_err (R.All.and (C34_without_dups (8 * P.lb) P.T hT false (fun _ _ => False) c hc
      (fun u hu => by have := hep u hu; omega) (OffsetsFit.mono hfit hn))
      (C34_entry_set (8 * P.lb) P.T hT false (fun _ _ => False) c hc (fun u hu => by have := hep u hu; omega) (OffsetsFit.mono hfit hn))) ?_
    rintro r ⟨⟨⟨hv, _, _, _, _⟩, _⟩, hnd, hset, hlenp⟩
    have hcl : c.m = (Spec.pairs c).length := ValidCsr.pairs_length (isCsr_of_valid hc ())
    have hle : (Spec.pairs r.2).length ≤ (Spec.pairs c).length :=
      List.Nodup.length_le_of_subset hnd (fun e he => (hset e).mp he)
    have hz : c.m = 0 := by rw [hcm]; rfl
    have hi := isCsr_of_valid hv ()
    refine R.All.bind_err (convertCsr_all (ow := 8 * P.ob) (T := P.T) (stor := .shared) (cfg := {}) hi (fun h => by cases h) rfl
      (fun h => by cases h) (by simp only [csrFactor]; have := Nat.two_pow_pos (8 * P.ob); simp; omega)) ?_
    rintro out ⟨_, hh⟩
    have hxy := csrEntries_xy hi {}
    have hp0 : Spec.pairs r.2 = [] := List.length_eq_zero_iff.mp (by omega)
    rw [hp0] at hxy
    have : out.m = 0 := by rw [hh.m, List.map_eq_nil_iff.mp hxy]; rfl
    exact fun o ho => C50_write_empty_violated P.T wtNone out this o ho
  · exact cleanGraph_any P hT μ fn h

/-! ## C79 symmetrize -/

/-- C79: `symmetrize` on a text edge list with at least one edge writes, in ascending order, each line `a b` with `a ≠ b` as
often as the file has lines `a b` and `b a` together, and each self loop as often as the file has it. -/
theorem C79_symmetrize_partial (P : Params Unit) (hwk : P.wk = wNone) (hT : 0 < P.T) (hlb : 0 < P.lb) (μ : Mapping) (hpad : 0 < μ.pad)
    (fn : List Byte) (h : Spec.PlainEdgeFile μ.bytes fn) (hmax : Spec.maxLabel (Spec.edges μ.bytes) + 1 < 2 ^ (8 * P.lb))
    (hfit : Spec.OffsetsFit (8 * P.lb) (Spec.maxLabel (Spec.edges μ.bytes) + 1))
    (hm : 2 * (Spec.edges μ.bytes).length < 2 ^ (8 * P.ob)) (hne : Spec.edges μ.bytes ≠ []) :
    (symmetrizeProg P μ fn).All (fun bs => ∃ ps, bs = Spec.edgeText ps ∧ Spec.LexWeak ps ∧
      ∀ a b, ps.count (a, b) = if a = b then (Spec.edges μ.bytes).count (a, a)
        else (Spec.edges μ.bytes).count (a, b) + (Spec.edges μ.bytes).count (b, a)) := by
  have hlab : ∀ e ∈ Spec.edges μ.bytes, e.1 < 2 ^ (8 * P.lb) ∧ e.2 < 2 ^ (8 * P.lb) := by
    intro e he
    have := le_maxLabel he
    omega
  have hlen := sym_length (Spec.edges μ.bytes)
  unfold symmetrizeProg
  refine R.All.bind (readCoo_plain P hwk hT symCfg μ hpad fn h hlab (by omega)) ?_
  rintro _ rfl
  refine R.All.bind (csr_of_stored hT (by omega) symCfg (Spec.edges μ.bytes) hmax hfit (by omega)) ?_
  rintro c ⟨hc, hn, hcm, hbnd, hep, hcount⟩
  refine R.All.bind (C32_sort P.T false (fun _ _ => False) c hc) ?_
  rintro r ⟨hv, hrn, hrm, _, _, _, hrow⟩
  have hcnt : ∀ a b, (Spec.pairs r).count (a, b) = if a = b then (Spec.edges μ.bytes).count (a, a)
        else (Spec.edges μ.bytes).count (a, b) + (Spec.edges μ.bytes).count (b, a) := by
    intro a b
    rw [← sym_count, pairs_count, hrn]
    split
    · rename_i ha
      rw [(hrow a ha).1.count_eq, hcount a b ha]
    · rename_i ha
      symm
      rw [List.countP_eq_zero]
      rintro ⟨x, y, u⟩ he
      have := hbnd _ he
      simp only [Bool.and_eq_true, beq_iff_eq, not_and]
      simp only at this
      omega
  have hpl : r.m = (Spec.pairs r).length := ValidCsr.pairs_length (isCsr_of_valid hv ())
  refine (write_pairs (8 * P.ob) P.T r hv (by omega) ?_).mono ?_
  · intro h0
    rw [h0] at hpl
    have : (Spec.edges μ.bytes).length = 0 := by simp only [List.length_nil] at hpl; omega
    exact hne (List.length_eq_zero_iff.mp this)
  · rintro bs rfl
    exact ⟨_, rfl, pairs_pairwise r (· ≤ ·) (fun v hv' => (hrow v (by rw [← hrn]; exact hv')).2), hcnt⟩

/-- C79: the output does not depend on the number of threads or the interleaving. -/
theorem C79_thread_independent (P P' : Params Unit) (hwk : P.wk = wNone) (hwk' : P'.wk = wNone) (hT : 0 < P.T) (hT' : 0 < P'.T)
    (hlb : 0 < P.lb) (hl : P'.lb = P.lb) (ho : P'.ob = P.ob) (μ : Mapping) (hpad : 0 < μ.pad)
    (fn : List Byte) (h : Spec.PlainEdgeFile μ.bytes fn) (hmax : Spec.maxLabel (Spec.edges μ.bytes) + 1 < 2 ^ (8 * P.lb))
    (hfit : Spec.OffsetsFit (8 * P.lb) (Spec.maxLabel (Spec.edges μ.bytes) + 1))
    (hm : 2 * (Spec.edges μ.bytes).length < 2 ^ (8 * P.ob)) (hne : Spec.edges μ.bytes ≠ []) (o o' : M (List Byte))
    (hr : (symmetrizeProg P μ fn).Out o) (hr' : (symmetrizeProg P' μ fn).Out o') : o = o' := by
  obtain ⟨_, rfl, ps, rfl, h1, h2⟩ := C79_symmetrize_partial P hwk hT hlb μ hpad fn h hmax hfit hm hne o hr
  obtain ⟨_, rfl, qs, rfl, h3, h4⟩ := C79_symmetrize_partial P' hwk' hT' (by rw [hl]; exact hlb) μ hpad fn h (by rw [hl]; exact hmax)
    (by rw [hl]; exact hfit) (by rw [ho]; exact hm) hne o' hr'
  rw [lexWeak_unique h1 h3 (fun ⟨a, b⟩ => by rw [h2, h4])]

/-- C79: the file written has each line as often as its mirror. -/
theorem C79_symmetric (P : Params Unit) (hwk : P.wk = wNone) (hT : 0 < P.T) (hlb : 0 < P.lb) (μ : Mapping) (hpad : 0 < μ.pad)
    (fn : List Byte) (h : Spec.PlainEdgeFile μ.bytes fn) (hmax : Spec.maxLabel (Spec.edges μ.bytes) + 1 < 2 ^ (8 * P.lb))
    (hfit : Spec.OffsetsFit (8 * P.lb) (Spec.maxLabel (Spec.edges μ.bytes) + 1))
    (hm : 2 * (Spec.edges μ.bytes).length < 2 ^ (8 * P.ob)) (hne : Spec.edges μ.bytes ≠ []) :
    (symmetrizeProg P μ fn).All (fun bs => ∀ a b, (Spec.edges bs).count (a, b) = (Spec.edges bs).count (b, a)) := by
  refine (C79_symmetrize_partial P hwk hT hlb μ hpad fn h hmax hfit hm hne).mono ?_
  rintro _ ⟨ps, rfl, _, hc⟩ a b
  rw [(edgeText_plain ps [] (by decide) (by decide)).2, hc, hc]
  by_cases hab : a = b
  · subst hab; rfl
  · rw [if_neg hab, if_neg (Ne.symm hab)]; omega

/-- C79: a file without edges makes the program end with an error instead of writing an empty file. -/
theorem C79_no_edges_violated (P : Params Unit) (hwk : P.wk = wNone) (hT : 0 < P.T) (hlb : 0 < P.lb) (μ : Mapping) (hpad : 0 < μ.pad)
    (fn : List Byte) (h : Spec.PlainEdgeFile μ.bytes fn) (he : Spec.edges μ.bytes = []) :
    (∀ o, (symmetrizeProg P μ fn).Out o → o = .error .error) ∧ (symmetrizeProg P μ fn).Any := by
  refine ⟨?_, symmetrizeProg_any P hT μ fn h⟩
  have hp : 0 < 2 ^ (8 * P.ob) := Nat.two_pow_pos _
  have hp2 : 2 ^ 8 ≤ 2 ^ (8 * P.lb) := Nat.pow_le_pow_right (by omega) (by omega)
  have hml : Spec.maxLabel (Spec.edges μ.bytes) = 0 := by rw [he]; rfl
  have hs0 : (storedAll symCfg ((Spec.edges μ.bytes).map unw)).length = 0 := by
    have := sym_length (Spec.edges μ.bytes)
    rw [he] at this ⊢
    simpa using this.1
  unfold symmetrizeProg
  refine R.All.bind_err (readCoo_plain P hwk hT symCfg μ hpad fn h (by rw [he]; simp) (by omega)) ?_
  rintro _ rfl
  refine R.All.bind_err (csr_of_stored hT (by omega) symCfg (Spec.edges μ.bytes) (by rw [hml]; omega)
    (by rw [hml]; exact .inr (by omega)) (by omega)) ?_
  rintro c ⟨hc, hn, hcm, -⟩
  refine R.All.bind_err (C32_sort P.T false (fun _ _ => False) c hc) ?_
  rintro r ⟨hv, hrn, hrm, -⟩
  have hi := isCsr_of_valid hv ()
  refine R.All.bind_err (convertCsr_all (ow := 8 * P.ob) (T := P.T) (stor := .shared) (cfg := {}) hi (fun h => by cases h) rfl
    (fun h => by cases h) (by simp only [csrFactor]; simp; omega)) ?_
  rintro out ⟨_, hh⟩
  have hxy := csrEntries_xy hi {}
  have hpl : r.m = (Spec.pairs r).length := ValidCsr.pairs_length hi
  have hp0 : Spec.pairs r = [] := List.length_eq_zero_iff.mp (by omega)
  rw [hp0] at hxy
  have : out.m = 0 := by rw [hh.m, List.map_eq_nil_iff.mp hxy]; rfl
  exact fun o ho => C50_write_empty_violated P.T wtNone out this o ho

/-! ## C80 find_edge -/

theorem row_lookup {c : Csr Unit} (hc : Spec.ValidCsr c false) {lw v u : Nat} (hfit : Spec.OffsetsFit lw c.n) (hv : v < c.n)
    (hs : (Spec.row c v).Pairwise (· ≤ ·)) :
    ∃ s e, neighborStart c v = .ok s ∧ neighborEnd lw c v = .ok e ∧ binarySearch c.endpoints s e u = .ok (decide (u ∈ Spec.row c v)) := by
  have h1 : c.offsets[v]? = some (Spec.off c v) := by
    rw [Spec.off, List.getD_eq_getElem?_getD, List.getElem?_eq_getElem (by rw [hc.offsets]; omega), Option.getD_some]
  have h2 : c.offsets[v + 1]? = some (Spec.off c (v + 1)) := by
    rw [Spec.off, List.getD_eq_getElem?_getD, List.getElem?_eq_getElem (by rw [hc.offsets]; omega), Option.getD_some]
  refine ⟨Spec.off c v, Spec.off c (v + 1), load_ok h1, ?_, ?_⟩
  · rw [neighborEnd, plusOne_fit (OffsetsFit.mono hfit (by omega))]
    exact load_ok h2
  · have hle : ∀ k, v + 1 + k ≤ c.n → Spec.off c (v + 1) ≤ Spec.off c (v + 1 + k) := by
      intro k
      induction k with
      | zero => intro _; exact Nat.le_refl _
      | succ k ih =>
        intro hk
        have := hc.mono (v + 1 + k) (by omega)
        have := ih (by omega)
        rw [← Nat.add_assoc]
        omega
    have hl := hle (c.n - (v + 1)) (by omega)
    rw [show v + 1 + (c.n - (v + 1)) = c.n by omega, hc.last] at hl
    exact binarySearch_ok (hc.mono v hv) (by rw [hc.endpoints]; exact hl) hs

/-- C80: `find_edge` with two vertices of the graph returns 0 if the file has the line `src dst`, and 2 otherwise. -/
theorem C80_find_edge (P : Params Unit) (hwk : P.wk = wNone) (hT : 0 < P.T) (hlb : 0 < P.lb) (μ : Mapping) (hpad : 0 < μ.pad)
    (fn : List Byte) (h : Spec.PlainEdgeFile μ.bytes fn) (hmax : Spec.maxLabel (Spec.edges μ.bytes) + 2 < 2 ^ (8 * P.lb - 1))
    (hm : (Spec.edges μ.bytes).length < 2 ^ (8 * P.ob - 1)) (src dst : Nat) (hs : src ≤ Spec.maxLabel (Spec.edges μ.bytes))
    (hd : dst ≤ Spec.maxLabel (Spec.edges μ.bytes)) :
    (findEdge P μ fn src dst).All (fun code => code = if (src, dst) ∈ Spec.edges μ.bytes then 0 else 2) := by
  have hb : 2 ^ (8 * P.lb - 1) ≤ 2 ^ (8 * P.lb) := Nat.pow_le_pow_right (by omega) (by omega)
  have hb' : 2 ^ (8 * P.ob - 1) ≤ 2 ^ (8 * P.ob) := Nat.pow_le_pow_right (by omega) (by omega)
  have hfit : Spec.OffsetsFit (8 * P.lb) (Spec.maxLabel (Spec.edges μ.bytes) + 1) := .inr (by omega)
  unfold findEdge
  refine R.All.bind (C77_csr_file_partial P hwk hT hlb μ hpad fn h (by omega) hfit (by omega)) ?_
  rintro ⟨g, p⟩ ⟨hv, hn, hgm, hcount⟩
  dsimp only at hv hn hgm hcount ⊢
  rw [if_neg (by omega)]
  refine R.All.bind (C32_sort P.T false (fun _ _ => False) g hv) ?_
  rintro r ⟨hv', hrn, _, _, _, _, hrow⟩
  rw [if_neg (by omega)]
  obtain ⟨hperm, hsort⟩ := hrow src (by omega)
  obtain ⟨s, e, hs1, he1, hbs⟩ := row_lookup (lw := 8 * P.lb) (u := dst) hv' (by rw [hrn, hn]; exact hfit) (v := src) (by omega) hsort
  rw [Int.toNat_natCast]
  refine R.All.step hs1 (R.All.step he1 ?_)
  rw [if_neg (by omega), Int.toNat_natCast]
  refine R.All.step hbs (R.All.pure ?_)
  have : dst ∈ Spec.row r src ↔ (src, dst) ∈ Spec.edges μ.bytes := by
    rw [hperm.mem_iff, ← List.count_pos_iff, hcount src dst (by omega), List.count_pos_iff]
  by_cases hmem : (src, dst) ∈ Spec.edges μ.bytes
  · rw [if_pos hmem, decide_eq_true (this.mpr hmem)]; rfl
  · rw [if_neg hmem, decide_eq_false (fun hh => hmem (this.mp hh))]; rfl

/-- C80: a vertex above the largest label of the file is rejected with an error. -/
theorem C80_improper (P : Params Unit) (hwk : P.wk = wNone) (hT : 0 < P.T) (hlb : 0 < P.lb) (μ : Mapping) (hpad : 0 < μ.pad)
    (fn : List Byte) (h : Spec.PlainEdgeFile μ.bytes fn) (hmax : Spec.maxLabel (Spec.edges μ.bytes) + 2 < 2 ^ (8 * P.lb - 1))
    (hm : (Spec.edges μ.bytes).length < 2 ^ (8 * P.ob - 1)) (src dst : Int)
    (hs : src > Spec.maxLabel (Spec.edges μ.bytes) ∨ dst > Spec.maxLabel (Spec.edges μ.bytes)) :
    ∀ o, (findEdge P μ fn src dst).Out o → o = .error .error := by
  have hb : 2 ^ (8 * P.lb - 1) ≤ 2 ^ (8 * P.lb) := Nat.pow_le_pow_right (by omega) (by omega)
  have hb' : 2 ^ (8 * P.ob - 1) ≤ 2 ^ (8 * P.ob) := Nat.pow_le_pow_right (by omega) (by omega)
  have hfit : Spec.OffsetsFit (8 * P.lb) (Spec.maxLabel (Spec.edges μ.bytes) + 1) := .inr (by omega)
  unfold findEdge
  refine R.All.bind_err (C77_csr_file_partial P hwk hT hlb μ hpad fn h (by omega) hfit (by omega)) ?_
  rintro ⟨g, p⟩ ⟨hv, hn, hgm, hcount⟩
  dsimp only at hv hn hgm hcount ⊢
  rw [if_pos (by omega)]
  intro o ho
  exact ho

/-- C80: no edge ends in a negative number: `find_edge` returns 2. -/
theorem C80_negative_target (P : Params Unit) (hwk : P.wk = wNone) (hT : 0 < P.T) (hlb : 0 < P.lb) (μ : Mapping) (hpad : 0 < μ.pad)
    (fn : List Byte) (h : Spec.PlainEdgeFile μ.bytes fn) (hmax : Spec.maxLabel (Spec.edges μ.bytes) + 2 < 2 ^ (8 * P.lb - 1))
    (hm : (Spec.edges μ.bytes).length < 2 ^ (8 * P.ob - 1)) (src : Nat) (dst : Int) (hs : src ≤ Spec.maxLabel (Spec.edges μ.bytes))
    (hd : dst < 0) :
    (findEdge P μ fn src dst).All (fun code => code = 2) := by
  have hb : 2 ^ (8 * P.lb - 1) ≤ 2 ^ (8 * P.lb) := Nat.pow_le_pow_right (by omega) (by omega)
  have hb' : 2 ^ (8 * P.ob - 1) ≤ 2 ^ (8 * P.ob) := Nat.pow_le_pow_right (by omega) (by omega)
  have hfit : Spec.OffsetsFit (8 * P.lb) (Spec.maxLabel (Spec.edges μ.bytes) + 1) := .inr (by omega)
  unfold findEdge
  refine R.All.bind (C77_csr_file_partial P hwk hT hlb μ hpad fn h (by omega) hfit (by omega)) ?_
  rintro ⟨g, p⟩ ⟨hv, hn, hgm, hcount⟩
  dsimp only at hv hn hgm hcount ⊢
  rw [if_neg (by omega)]
  refine R.All.bind (C32_sort P.T false (fun _ _ => False) g hv) ?_
  rintro r ⟨hv', hrn, _, _, _, _, hrow⟩
  rw [if_neg (by omega)]
  obtain ⟨_, hsort⟩ := hrow src (by omega)
  obtain ⟨s, e, hs1, he1, _⟩ := row_lookup (lw := 8 * P.lb) (u := 0) hv' (by rw [hrn, hn]; exact hfit) (v := src) (by omega) hsort
  rw [Int.toNat_natCast]
  refine R.All.step hs1 (R.All.step he1 ?_)
  rw [if_pos hd]
  exact R.All.step rfl (R.All.pure rfl)

/-- C80: a negative `src` is not rejected: every execution reads outside of the offsets. -/
theorem C80_negative_violated (P : Params Unit) (hwk : P.wk = wNone) (hT : 0 < P.T) (hlb : 0 < P.lb) (μ : Mapping) (hpad : 0 < μ.pad)
    (fn : List Byte) (h : Spec.PlainEdgeFile μ.bytes fn) (hmax : Spec.maxLabel (Spec.edges μ.bytes) + 2 < 2 ^ (8 * P.lb - 1))
    (hm : (Spec.edges μ.bytes).length < 2 ^ (8 * P.ob - 1)) (src dst : Int) (hs : src < 0)
    (hd : dst ≤ Spec.maxLabel (Spec.edges μ.bytes)) :
    (∀ o, (findEdge P μ fn src dst).Out o → o = .error .oob) ∧ (findEdge P μ fn src dst).Any := by
  have hb : 2 ^ (8 * P.lb - 1) ≤ 2 ^ (8 * P.lb) := Nat.pow_le_pow_right (by omega) (by omega)
  have hb' : 2 ^ (8 * P.ob - 1) ≤ 2 ^ (8 * P.ob) := Nat.pow_le_pow_right (by omega) (by omega)
  have hfit : Spec.OffsetsFit (8 * P.lb) (Spec.maxLabel (Spec.edges μ.bytes) + 1) := .inr (by omega)
  have hcsr := C77_csr_file_partial P hwk hT hlb μ hpad fn h (by omega) hfit (by omega)
  unfold findEdge
  refine ⟨?_, ?_⟩
  · refine R.All.bind_err hcsr ?_
    rintro ⟨g, p⟩ ⟨hv, hn, hgm, hcount⟩
    dsimp only at hv hn hgm hcount ⊢
    rw [if_neg (by omega)]
    refine R.All.bind_err (C32_sort P.T false (fun _ _ => False) g hv) ?_
    intro r _ o ho
    rw [if_pos hs] at ho
    exact ho
  · refine R.Any.bindAll (readCsr_any P hT μ fn h) hcsr ?_
    rintro ⟨g, p⟩ ⟨hv, hn, hgm, hcount⟩
    dsimp only at hv hn hgm hcount ⊢
    rw [if_neg (by omega)]
    refine R.Any.bind (sortCsr_any hT _ false_strictWeak _) (fun r => ?_)
    rw [if_pos hs]
    exact R.Any.lift _

/-! ## instances -/

/-- A file whose only edges are self loops. -/
def loopFile : Mapping := ⟨str "3 3\n1 1 # loop\n", 3⟩

theorem loopFile_plain : Spec.PlainEdgeFile loopFile.bytes (str "g.txt") := by
  refine ⟨⟨?_, by decide⟩, by decide, by decide, by decide⟩
  have : ∀ l ∈ Spec.lines loopFile.bytes, Spec.ints l = [] ∨ (Spec.edge l).isSome := by decide
  intro l hl
  rcases this l hl with h | h
  · exact .inl h
  · exact .inr (Option.isSome_iff_exists.mp h)

theorem loopFile_edges : Spec.edges loopFile.bytes = [(3, 3), (1, 1)] := by decide

/-- `loopFile` meets the hypotheses of `C78_only_loops_violated`. -/
example : 0 < loopFile.pad ∧ Spec.PlainEdgeFile loopFile.bytes (str "g.txt") ∧ Spec.maxLabel (Spec.edges loopFile.bytes) + 1 < 2 ^ (8 * 8) ∧
    Spec.OffsetsFit (8 * 8) (Spec.maxLabel (Spec.edges loopFile.bytes) + 1) ∧ (Spec.edges loopFile.bytes).length < 2 ^ (8 * 8) ∧
    ∀ e ∈ Spec.edges loopFile.bytes, e.1 = e.2 := by
  refine ⟨by decide, loopFile_plain, ?_, .inr ?_, ?_, ?_⟩ <;> rw [loopFile_edges] <;> decide

/-- `exFile` (edges 1 2, 3 4, 5 5, 2 1) meets the hypotheses of C78, C79 and C80. -/
example : 0 < exFile.pad ∧ Spec.PlainEdgeFile exFile.bytes (str "g.txt") ∧ Spec.maxLabel (Spec.edges exFile.bytes) + 1 < 2 ^ (8 * 8) ∧
    Spec.OffsetsFit (8 * 8) (Spec.maxLabel (Spec.edges exFile.bytes) + 1) ∧ 2 * (Spec.edges exFile.bytes).length < 2 ^ (8 * 8) ∧
    (∃ e ∈ Spec.edges exFile.bytes, e.1 ≠ e.2) ∧ Spec.edges exFile.bytes ≠ [] ∧
    Spec.maxLabel (Spec.edges exFile.bytes) + 2 < 2 ^ (8 * 8 - 1) ∧ (Spec.edges exFile.bytes).length < 2 ^ (8 * 8 - 1) ∧
    3 ≤ Spec.maxLabel (Spec.edges exFile.bytes) ∧ 4 ≤ Spec.maxLabel (Spec.edges exFile.bytes) := by
  refine ⟨by decide, exFile_plain, ?_, .inr ?_, ?_, ⟨(1, 2), ?_⟩, ?_, ?_, ?_, ?_, ?_⟩ <;> rw [exFile_edges] <;> decide

/-- The program parameters of the examples (64-bit labels and ordinals), with three threads. -/
def exP : Params Unit := { T := 3, lb := 8, ob := 8, wk := wNone, cw := ⟨1, fun _ => [0], fun _ => (), fun _ => True, by decide, fun _ => rfl, fun _ _ => rfl⟩, stor := .shared }

/-- What cleaning `exFile` writes. -/
example : (cleanGraph exP exFile (str "g.txt")).All (fun bs => bs = str "1 2\n3 4\n") := by
  refine (C78_clean_graph_partial exP rfl (by decide) (by decide) exFile (by decide) _ exFile_plain
    (by rw [exFile_edges]; decide) (.inr (by rw [exFile_edges]; decide)) (by rw [exFile_edges]; decide)
    ⟨(1, 2), by rw [exFile_edges]; decide⟩).mono ?_
  rintro _ ⟨ps, rfl, hs, hm⟩
  rw [lexSorted_unique hs (qs := [(1, 2), (3, 4)]) (by unfold Spec.LexSorted; decide)]
  · decide
  · rintro ⟨a, b⟩
    rw [hm, exFile_edges]
    simp only [List.mem_cons, List.not_mem_nil, or_false, Prod.mk.injEq]
    omega

end Pigo
