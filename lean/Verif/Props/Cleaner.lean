import Verif.Model.Programs
import Verif.Spec.Cleaner
import Verif.Props.Examples

/-!
# C99: the cleaning program of the tutorial, with any choice of the template flags

`cleanWith cfg P μ fn`: the bytes written, from the file `fn` with content `μ`, for every number of threads and every interleaving.
-/

namespace Pigo

theorem cleaned_mem (cfg : Cfg) (es : List (Nat × Nat)) (a b : Nat) :
    (a, b, ()) ∈ storedAll cfg (es.map unw) ↔ Spec.Cleaned cfg.sym cfg.ut cfg.sl es a b := by
  obtain ⟨sym, ut, sl⟩ := cfg
  unfold storedAll Spec.Cleaned
  rw [List.flatMap_map, List.mem_flatMap]
  constructor
  · rintro ⟨⟨x, y⟩, h, hs⟩
    have hends := stored_ends hs
    dsimp only at hends
    have key : (sym = false → a = x ∧ b = y) ∧ (ut = true → a ≤ b) ∧ (sl = true → a ≠ b) := by
      rcases Nat.lt_trichotomy x y with hlt | rfl | hlt
      · have h0 : ¬ x = y := by omega
        have h1 : min x y = x := by omega
        have h2 : max x y = y := by omega
        have h3 : x ≤ y := by omega
        cases sym <;> cases ut <;> cases sl <;> simp [Spec.stored, unw, h0, h1, h2, h3] at hs ⊢ <;> omega
      · cases sym <;> cases ut <;> cases sl <;> simp [Spec.stored, unw] at hs ⊢ <;> omega
      · have h0 : ¬ x = y := by omega
        have h1 : min x y = y := by omega
        have h2 : max x y = x := by omega
        have h3 : ¬ x ≤ y := by omega
        cases sym <;> cases ut <;> cases sl <;> simp [Spec.stored, unw, h0, h1, h2, h3] at hs ⊢ <;> omega
    refine ⟨?_, key.2⟩
    cases sym with
    | false => obtain ⟨rfl, rfl⟩ := key.1 rfl; exact .inl h
    | true =>
      rcases hends with ⟨rfl, rfl⟩ | ⟨rfl, rfl⟩
      · exact .inl h
      · exact .inr ⟨rfl, h⟩
  · rintro ⟨h, hut, hsl⟩
    rcases h with h | ⟨rfl, h⟩
    · refine ⟨(a, b), h, ?_⟩
      by_cases hab : a = b
      · subst hab
        cases sym <;> cases ut <;> cases sl <;> simp [Spec.stored, unw] at hsl ⊢
      · cases sym <;> cases ut <;> cases sl <;> simp [Spec.stored, unw, hab] at hut ⊢ <;> simp [hut] <;> omega
    · refine ⟨(b, a), h, ?_⟩
      by_cases hab : b = a
      · subst hab
        cases ut <;> cases sl <;> simp [Spec.stored, unw] at hsl ⊢
      · cases ut <;> cases sl <;> simp [Spec.stored, unw, hab] at hut ⊢ <;> omega

theorem stored_length_le (cfg : Cfg) (es : List (Nat × Nat)) :
    (storedAll cfg (es.map unw)).length ≤ (if cfg.sym && !cfg.ut then 2 else 1) * es.length := by
  obtain ⟨sym, ut, sl⟩ := cfg
  unfold storedAll
  induction es with
  | nil => simp
  | cons e es ih =>
    rw [List.map_cons, List.flatMap_cons, List.length_append, List.length_cons, Nat.mul_add]
    have : (Spec.stored sym ut sl (unw e)).length ≤ (if sym && !ut then 2 else 1) := by
      obtain ⟨x, y⟩ := e
      by_cases hxy : x = y <;> cases sym <;> cases ut <;> cases sl <;> simp [Spec.stored, unw, hxy]
      all_goals by_cases hle : x ≤ y <;> simp [hle]
    dsimp only at ih ⊢
    omega

/-- C99: for every choice of the flags, if the cleaned graph has an edge, exactly the edges of the cleaned graph are written, each of them
once, in ascending order. -/
theorem C99_clean_partial (cfg : Cfg) (P : Params Unit) (hwk : P.wk = wNone) (hT : 0 < P.T) (hlb : 0 < P.lb) (μ : Mapping) (hpad : 0 < μ.pad)
    (fn : List Byte) (h : Spec.PlainEdgeFile μ.bytes fn) (hmax : Spec.maxLabel (Spec.edges μ.bytes) + 1 < 2 ^ (8 * P.lb))
    (hfit : Spec.OffsetsFit (8 * P.lb) (Spec.maxLabel (Spec.edges μ.bytes) + 1))
    (hm : (if cfg.sym && !cfg.ut then 2 else 1) * (Spec.edges μ.bytes).length < 2 ^ (8 * P.ob))
    (hne : ∃ a b, Spec.Cleaned cfg.sym cfg.ut cfg.sl (Spec.edges μ.bytes) a b) :
    (cleanWith cfg P μ fn).All (fun bs => ∃ ps, bs = Spec.edgeText ps ∧ Spec.LexSorted ps ∧
      ∀ a b, (a, b) ∈ ps ↔ Spec.Cleaned cfg.sym cfg.ut cfg.sl (Spec.edges μ.bytes) a b) := by
  have hlab : ∀ e ∈ Spec.edges μ.bytes, e.1 < 2 ^ (8 * P.lb) ∧ e.2 < 2 ^ (8 * P.lb) := by
    intro e he
    have := le_maxLabel he
    omega
  have hlen := stored_length_le cfg (Spec.edges μ.bytes)
  unfold cleanWith
  refine R.All.bind (readCoo_plain P hwk hT cfg μ hpad fn h hlab (by omega)) ?_
  rintro _ rfl
  refine R.All.bind (csr_of_stored hT (by omega) cfg (Spec.edges μ.bytes) hmax hfit (by omega)) ?_
  rintro c ⟨hc, hn, hcm, hbnd, hep, hcount⟩
  refine R.All.bind (R.All.and (C34_without_dups (8 * P.lb) P.T hT false (fun _ _ => False) c hc
    (fun u hu => by have := hep u hu; omega) (OffsetsFit.mono hfit hn))
    (C34_entry_set (8 * P.lb) P.T hT false (fun _ _ => False) c hc (fun u hu => by have := hep u hu; omega) (OffsetsFit.mono hfit hn))) ?_
  rintro r ⟨⟨⟨hv, hrn, _, _, hrow⟩, _⟩, hnd, hset, hlenp⟩
  have hmem : ∀ a b, (a, b) ∈ Spec.pairs r.2 ↔ Spec.Cleaned cfg.sym cfg.ut cfg.sl (Spec.edges μ.bytes) a b := by
    intro a b
    rw [hset, ← cleaned_mem, ← List.count_pos_iff, pairs_count]
    constructor
    · intro hp
      split at hp
      · rename_i ha
        rw [hcount a b ha, List.countP_pos_iff] at hp
        obtain ⟨⟨x, y, u⟩, he, hxy⟩ := hp
        simp at hxy
        obtain ⟨rfl, rfl⟩ := hxy
        exact he
      · omega
    · intro hp
      rw [if_pos (hbnd _ hp), hcount a b (hbnd _ hp), List.countP_pos_iff]
      exact ⟨_, hp, by simp⟩
  have hle : (Spec.pairs r.2).length ≤ (Spec.pairs c).length :=
    List.Nodup.length_le_of_subset hnd (fun e he => (hset e).mp he)
  have hcl : c.m = (Spec.pairs c).length := ValidCsr.pairs_length (isCsr_of_valid hc ())
  refine (write_pairs (8 * P.ob) P.T r.2 hv (by omega) ?_).mono ?_
  · obtain ⟨x, y, he⟩ := hne
    intro h0
    have := (hmem x y).mpr he
    rw [h0] at this; cases this
  · rintro bs rfl
    exact ⟨_, rfl, pairs_pairwise r.2 (· < ·) (fun v hv' => (hrow v (by rw [← hrn]; exact hv')).1), hmem⟩

/-- C99: the program as printed in the tutorial is the example program `clean_graph`. -/
theorem C99_example (P : Params Unit) (μ : Mapping) (fn : List Byte) : cleanWith cleanCfg P μ fn = cleanGraph P μ fn := rfl

/-- C99: the output does not depend on the number of threads or the interleaving. -/
theorem C99_thread_independent (cfg : Cfg) (P P' : Params Unit) (hwk : P.wk = wNone) (hwk' : P'.wk = wNone) (hT : 0 < P.T) (hT' : 0 < P'.T)
    (hlb : 0 < P.lb) (hl : P'.lb = P.lb) (ho : P'.ob = P.ob) (μ : Mapping) (hpad : 0 < μ.pad)
    (fn : List Byte) (h : Spec.PlainEdgeFile μ.bytes fn) (hmax : Spec.maxLabel (Spec.edges μ.bytes) + 1 < 2 ^ (8 * P.lb))
    (hfit : Spec.OffsetsFit (8 * P.lb) (Spec.maxLabel (Spec.edges μ.bytes) + 1))
    (hm : (if cfg.sym && !cfg.ut then 2 else 1) * (Spec.edges μ.bytes).length < 2 ^ (8 * P.ob))
    (hne : ∃ a b, Spec.Cleaned cfg.sym cfg.ut cfg.sl (Spec.edges μ.bytes) a b) (o o' : M (List Byte))
    (hr : (cleanWith cfg P μ fn).Out o) (hr' : (cleanWith cfg P' μ fn).Out o') : o = o' := by
  obtain ⟨_, rfl, ps, rfl, h1, h2⟩ := C99_clean_partial cfg P hwk hT hlb μ hpad fn h hmax hfit hm hne o hr
  obtain ⟨_, rfl, qs, rfl, h3, h4⟩ := C99_clean_partial cfg P' hwk' hT' (by rw [hl]; exact hlb) μ hpad fn h (by rw [hl]; exact hmax)
    (by rw [hl]; exact hfit) (by rw [ho]; exact hm) hne o' hr'
  rw [lexSorted_unique h1 h3 (fun ⟨a, b⟩ => by rw [h2, h4])]

/-- C99, the variant for directed graphs (`false, false, true`): the self loops and the repetitions are gone, every other edge is kept in
its direction. -/
theorem C99_directed_partial (P : Params Unit) (hwk : P.wk = wNone) (hT : 0 < P.T) (hlb : 0 < P.lb) (μ : Mapping) (hpad : 0 < μ.pad)
    (fn : List Byte) (h : Spec.PlainEdgeFile μ.bytes fn) (hmax : Spec.maxLabel (Spec.edges μ.bytes) + 1 < 2 ^ (8 * P.lb))
    (hfit : Spec.OffsetsFit (8 * P.lb) (Spec.maxLabel (Spec.edges μ.bytes) + 1))
    (hm : (Spec.edges μ.bytes).length < 2 ^ (8 * P.ob)) (hne : ∃ e ∈ Spec.edges μ.bytes, e.1 ≠ e.2) :
    (cleanWith { sym := false, ut := false, sl := true } P μ fn).All (fun bs => ∃ ps, bs = Spec.edgeText ps ∧ Spec.LexSorted ps ∧
      ∀ a b, (a, b) ∈ ps ↔ (a, b) ∈ Spec.edges μ.bytes ∧ a ≠ b) := by
  refine (C99_clean_partial { sym := false, ut := false, sl := true } P hwk hT hlb μ hpad fn h hmax hfit (by simpa using hm) ?_).mono ?_
  · obtain ⟨⟨a, b⟩, he, hab⟩ := hne
    exact ⟨a, b, .inl he, by simp, fun _ => hab⟩
  · rintro bs ⟨ps, rfl, hs, hps⟩
    refine ⟨ps, rfl, hs, fun a b => ?_⟩
    rw [hps, Spec.Cleaned]
    simp

theorem cleanWith_any (cfg : Cfg) (P : Params Unit) (hT : 0 < P.T) (μ : Mapping) (fn : List Byte) (h : Spec.PlainEdgeFile μ.bytes fn) :
    (cleanWith cfg P μ fn).Any :=
  R.Any.bind (readCoo_any P _ μ fn h) (fun _ => R.Any.bind (convertCoo_any hT _ _) (fun _ => R.Any.bind
    (withoutDups_any hT _ false_strictWeak _) (fun _ => R.Any.bind (convertCsr_any hT _ _ _ _)
      (fun c => (C46_write_runs P.T hT 8 wtNone c ⟨[], [], 0, 0⟩).1))))

/-- C99: if the cleaned graph has no edges the program ends with an error instead of writing an empty file. -/
theorem C99_empty_violated (cfg : Cfg) (P : Params Unit) (hwk : P.wk = wNone) (hT : 0 < P.T) (hlb : 0 < P.lb) (μ : Mapping) (hpad : 0 < μ.pad)
    (fn : List Byte) (h : Spec.PlainEdgeFile μ.bytes fn) (hmax : Spec.maxLabel (Spec.edges μ.bytes) + 1 < 2 ^ (8 * P.lb))
    (hfit : Spec.OffsetsFit (8 * P.lb) (Spec.maxLabel (Spec.edges μ.bytes) + 1))
    (hm : (if cfg.sym && !cfg.ut then 2 else 1) * (Spec.edges μ.bytes).length < 2 ^ (8 * P.ob))
    (hnone : ∀ a b, ¬ Spec.Cleaned cfg.sym cfg.ut cfg.sl (Spec.edges μ.bytes) a b) :
    (∀ o, (cleanWith cfg P μ fn).Out o → o = .error .error) ∧ (cleanWith cfg P μ fn).Any := by
  have hlab : ∀ e ∈ Spec.edges μ.bytes, e.1 < 2 ^ (8 * P.lb) ∧ e.2 < 2 ^ (8 * P.lb) := by
    intro e he
    have := le_maxLabel he
    omega
  have hlen := stored_length_le cfg (Spec.edges μ.bytes)
  have hnil : storedAll cfg ((Spec.edges μ.bytes).map unw) = [] := by
    rw [List.eq_nil_iff_forall_not_mem]
    rintro ⟨a, b, ⟨⟩⟩ hab
    exact hnone a b ((cleaned_mem cfg _ a b).mp hab)
  refine ⟨?_, cleanWith_any cfg P hT μ fn h⟩
  unfold cleanWith
  refine R.All.bind_err (readCoo_plain P hwk hT cfg μ hpad fn h hlab (by omega)) ?_
  rintro _ rfl
  refine R.All.bind_err (csr_of_stored hT (by omega) cfg (Spec.edges μ.bytes) hmax hfit (by omega)) ?_
  rintro c ⟨hc, hn, hcm, hbnd, hep, hcount⟩
  rw [hnil] at hcm
  refine R.All.bind_err (R.All.and (C34_without_dups (8 * P.lb) P.T hT false (fun _ _ => False) c hc
    (fun u hu => by have := hep u hu; omega) (OffsetsFit.mono hfit hn))
    (C34_entry_set (8 * P.lb) P.T hT false (fun _ _ => False) c hc (fun u hu => by have := hep u hu; omega) (OffsetsFit.mono hfit hn))) ?_
  rintro r ⟨⟨⟨hv, _, _, _, _⟩, _⟩, hnd, hset, hlenp⟩
  have hcl : c.m = (Spec.pairs c).length := ValidCsr.pairs_length (isCsr_of_valid hc ())
  have hle : (Spec.pairs r.2).length ≤ (Spec.pairs c).length :=
    List.Nodup.length_le_of_subset hnd (fun e he => (hset e).mp he)
  have hz : c.m = 0 := by rw [hcm]; rfl
  have hi := isCsr_of_valid hv ()
  refine R.All.bind_err (convertCsr_all (ow := 8 * P.ob) (T := P.T) (stor := .shared) (cfg := {}) hi (fun h => by cases h) rfl
    (fun h => by cases h) (by simp only [csrFactor]; have := Nat.two_pow_pos (8 * P.ob); simp; omega)) ?_
  rintro out ⟨_, hh⟩
  have hxy := csrEntries_xy hi {}
  have hp0 : Spec.pairs r.2 = [] := List.length_eq_zero_iff.mp (by omega)
  rw [hp0] at hxy
  have : out.m = 0 := by rw [hh.m, List.map_eq_nil_iff.mp hxy]; rfl
  exact fun o ho => C50_write_empty_violated P.T wtNone out this o ho

/-! ## the file of the tutorial -/

/-- messy.el (docs/tutorials/simple_graph_cleaner.rst 130–144), mapped with `pad` bytes behind it. -/
def messyFile : Mapping := ⟨str "5 6\n4 4\n4 4\n3 4\n6 5\n1 2\n1 1\n1 2\n1 2\n2 1\n1 0\n0 2\n0 1\n", 3⟩

theorem messy_plain : Spec.PlainEdgeFile messyFile.bytes (str "messy.el") := by
  refine ⟨⟨?_, by decide⟩, by decide, by decide, by decide⟩
  have : ∀ l ∈ Spec.lines messyFile.bytes, Spec.ints l = [] ∨ (Spec.edge l).isSome := by decide
  intro l hl
  rcases this l hl with h | h
  · exact .inl h
  · exact .inr (Option.isSome_iff_exists.mp h)

theorem messy_edges : Spec.edges messyFile.bytes =
    [(5, 6), (4, 4), (4, 4), (3, 4), (6, 5), (1, 2), (1, 1), (1, 2), (1, 2), (2, 1), (1, 0), (0, 2), (0, 1)] := by decide

/-- C99: the run of the tutorial: messy.el gives the five lines shown there, for every number of threads, label and ordinal size. -/
theorem C99_tutorial (P : Params Unit) (hwk : P.wk = wNone) (hT : 0 < P.T) (hlb : 0 < P.lb) (hob : 0 < P.ob) :
    (cleanWith cleanCfg P messyFile (str "messy.el")).All (fun bs => bs = str "0 1\n0 2\n1 2\n3 4\n5 6\n") ∧
    (cleanWith cleanCfg P messyFile (str "messy.el")).Any := by
  have hp : 2 ^ 8 ≤ 2 ^ (8 * P.lb) := Nat.pow_le_pow_right (by omega) (by omega)
  have hp' : 2 ^ 8 ≤ 2 ^ (8 * P.ob) := Nat.pow_le_pow_right (by omega) (by omega)
  have hmx : Spec.maxLabel (Spec.edges messyFile.bytes) = 6 := by rw [messy_edges]; decide
  have hln : (Spec.edges messyFile.bytes).length = 13 := by rw [messy_edges]; decide
  refine ⟨(C99_clean_partial cleanCfg P hwk hT hlb messyFile (by decide) _ messy_plain (by omega) (.inr (by omega))
    (by rw [hln]; simp [cleanCfg]; omega) ⟨5, 6, .inl (by rw [messy_edges]; decide), by decide, by decide⟩).mono ?_,
    cleanWith_any cleanCfg P hT messyFile _ messy_plain⟩
  rintro _ ⟨ps, rfl, hs, hm⟩
  rw [lexSorted_unique hs (qs := [(0, 1), (0, 2), (1, 2), (3, 4), (5, 6)]) (by unfold Spec.LexSorted; decide)]
  · decide
  · rintro ⟨a, b⟩
    rw [hm, messy_edges, Spec.Cleaned]
    generalize hes : [(5, 6), (4, 4), (4, 4), (3, 4), (6, 5), (1, 2), (1, 1), (1, 2), (1, 2), (2, 1), (1, 0), (0, 2), (0, 1)] = es
    generalize hqs : [(0, 1), (0, 2), (1, 2), (3, 4), (5, 6)] = qs
    have h1 : ∀ e ∈ es, (e.1 < e.2 → e ∈ qs) ∧ (e.2 < e.1 → (e.2, e.1) ∈ qs) := by subst hes hqs; decide
    have h2 : ∀ e ∈ qs, e.1 < e.2 ∧ (e ∈ es ∨ (e.2, e.1) ∈ es) := by subst hes hqs; decide
    constructor
    · rintro ⟨h | ⟨_, h⟩, hle, hab⟩
      · have := hle rfl
        have := hab rfl
        exact (h1 _ h).1 (by simp only; omega)
      · have := hle rfl
        have := hab rfl
        exact (h1 _ h).2 (by simp only; omega)
    · intro h
      obtain ⟨hlt, ho⟩ := h2 _ h
      simp only at hlt
      exact ⟨ho.imp id (fun hh => ⟨rfl, hh⟩), fun _ => by omega, fun _ => by omega⟩

/-- C99: the directed variant on the same file. -/
theorem C99_tutorial_directed (P : Params Unit) (hwk : P.wk = wNone) (hT : 0 < P.T) (hlb : 0 < P.lb) (hob : 0 < P.ob) :
    (cleanWith { sym := false, ut := false, sl := true } P messyFile (str "messy.el")).All
      (fun bs => bs = str "0 1\n0 2\n1 0\n1 2\n2 1\n3 4\n5 6\n6 5\n") := by
  have hp : 2 ^ 8 ≤ 2 ^ (8 * P.lb) := Nat.pow_le_pow_right (by omega) (by omega)
  have hp' : 2 ^ 8 ≤ 2 ^ (8 * P.ob) := Nat.pow_le_pow_right (by omega) (by omega)
  have hmx : Spec.maxLabel (Spec.edges messyFile.bytes) = 6 := by rw [messy_edges]; decide
  have hln : (Spec.edges messyFile.bytes).length = 13 := by rw [messy_edges]; decide
  refine (C99_directed_partial P hwk hT hlb messyFile (by decide) _ messy_plain (by omega) (.inr (by omega))
    (by omega) ⟨(5, 6), by rw [messy_edges]; decide⟩).mono ?_
  rintro _ ⟨ps, rfl, hs, hm⟩
  rw [lexSorted_unique hs (qs := [(0, 1), (0, 2), (1, 0), (1, 2), (2, 1), (3, 4), (5, 6), (6, 5)]) (by unfold Spec.LexSorted; decide)]
  · decide
  · rintro ⟨a, b⟩
    rw [hm, messy_edges]
    generalize hes : [(5, 6), (4, 4), (4, 4), (3, 4), (6, 5), (1, 2), (1, 1), (1, 2), (1, 2), (2, 1), (1, 0), (0, 2), (0, 1)] = es
    generalize hqs : [(0, 1), (0, 2), (1, 0), (1, 2), (2, 1), (3, 4), (5, 6), (6, 5)] = qs
    have h1 : ∀ e ∈ es, e.1 ≠ e.2 → e ∈ qs := by subst hes hqs; decide
    have h2 : ∀ e ∈ qs, e ∈ es ∧ e.1 ≠ e.2 := by subst hes hqs; decide
    exact ⟨fun h => h1 _ h.1 h.2, fun h => h2 _ h⟩

/-- `loopFile` meets the hypotheses of `C99_empty_violated` for the directed variant. -/
example : 0 < loopFile.pad ∧ Spec.PlainEdgeFile loopFile.bytes (str "g.txt") ∧ Spec.maxLabel (Spec.edges loopFile.bytes) + 1 < 2 ^ (8 * 8) ∧
    ∀ a b, ¬ Spec.Cleaned false false true (Spec.edges loopFile.bytes) a b := by
  refine ⟨by decide, loopFile_plain, by rw [loopFile_edges]; decide, ?_⟩
  rintro a b ⟨h, _, hab⟩
  rw [loopFile_edges] at h
  simp at h
  have := hab rfl
  omega

end Pigo
