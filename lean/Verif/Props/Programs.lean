import Verif.Model.Programs
import Verif.Spec.Programs
import Verif.Props.Cut
import Verif.Props.CsrFile
import Verif.Props.Binary2

/-!
# C96, C97: the programs of the documentation text

C96: the tutorial program that reads a vector from a binary file.  C97: the program of the README.
-/

namespace Pigo

variable {W : Type}

/-! ## C96 -/

/-- C96, the outcome for every file: with the header `size` in the first eight bytes, the vector is the memory behind the header (the file
and the rest of the mapping, which is zero); if that much is not mapped the program reads outside of the mapping. -/
theorem C96_outcome (T : Nat) (hT : 0 < T) (cw : Codec W) (μ : Mapping) :
    (μ.mem.length < 8 → (readVec T cw μ).Outside) ∧
    (8 ≤ μ.mem.length → 2 ^ 63 ≤ cw.size * decLE (μ.mem.take 8) → ∀ o, (readVec T cw μ).Out o → o = .error .error) ∧
    (8 ≤ μ.mem.length → cw.size * decLE (μ.mem.take 8) < 2 ^ 63 → μ.mem.length < 8 + cw.size * decLE (μ.mem.take 8) →
      (readVec T cw μ).Outside) ∧
    (8 + cw.size * decLE (μ.mem.take 8) ≤ μ.mem.length → cw.size * decLE (μ.mem.take 8) < 2 ^ 63 →
      (readVec T cw μ).All (fun xs => xs.length = decLE (μ.mem.take 8) ∧
        ∀ i, i < decLE (μ.mem.take 8) → xs[i]? = some (cw.dec ((μ.mem.drop (8 + i * cw.size)).take cw.size)))) := by
  have hd : 8 ≤ μ.mem.length → rdLE μ 8 0 = .ok (decLE (μ.mem.take 8), 8) := by
    intro h
    rw [rdLE_slice (p := 0) (k := 8) (by omega)]
    simp [fld]
  refine ⟨fun h => ?_, fun h hb o ho => ?_, fun h hs hl => ?_, fun h hs => ?_⟩
  · unfold readVec
    exact R.Outside.bind_left (R.Outside.lift (rdLE_outside (by decide) (by omega)))
  · unfold readVec at ho
    obtain ⟨o1, rfl, h2⟩ := ho
    rw [hd h] at h2
    dsimp only at h2
    rw [if_pos hb] at h2
    exact h2
  · unfold readVec
    refine R.Outside.step (hd h) ?_
    dsimp only
    rw [if_neg (by omega)]
    exact R.Outside.bind_left (readArr_outside hT (by omega) (by omega) _)
  · unfold readVec
    refine R.All.step (hd (by omega)) ?_
    dsimp only
    rw [if_neg (by omega)]
    refine R.All.bind (readArr_slice hT (by omega) cw.dec) ?_
    rintro _ rfl
    refine R.All.pure ⟨decArr_length, fun i hi => ?_⟩
    rw [decArr, List.getElem?_map, List.getElem?_range hi]
    simp only [Option.map_some, Option.some.injEq, fld]
    congr 1
    have h1 : i * cw.size + cw.size ≤ cw.size * decLE (μ.mem.take 8) := by
      rw [← Nat.succ_mul, Nat.mul_comm cw.size]; exact Nat.mul_le_mul_right _ hi
    rw [List.drop_take, List.drop_drop, List.take_take, Nat.min_eq_left (by omega)]

/-- C96: the tutorial program on a file `<size><data>…` passes on exactly the data, with every number of threads and in every execution;
whatever follows in the file is ignored. -/
theorem C96_read_vector (T : Nat) (hT : 0 < T) (cw : Codec W) (xs : List W) (hok : ∀ x ∈ xs, cw.ok x) (hlen : cw.size * xs.length < 2 ^ 63)
    (rest : List Byte) (pad : Nat) :
    (readVec T cw ⟨Spec.vecFile cw xs ++ rest, pad⟩).All (fun ys => ys = xs) := by
  have hr : Rest ⟨Spec.vecFile cw xs ++ rest, pad⟩ 0 (encLE 8 xs.length ++ (rawArr cw.enc xs ++ (rest ++ List.replicate pad 0))) := by
    have := rest_file (bs := Spec.vecFile cw xs ++ rest) (pad := pad)
    rw [encLE_eq]
    simpa only [Spec.vecFile, Spec.vecFileWith, List.append_assoc, rawArr] using this
  have hx : xs.length < 2 ^ 63 := Nat.lt_of_le_of_lt (Nat.le_mul_of_pos_left _ cw.pos) hlen
  unfold readVec
  refine R.All.step (rdLE_at hr (encLE_length ..)) ?_
  rw [decLE_encLE (k := 8) (by omega)]
  dsimp only
  rw [if_neg (by omega)]
  have hr := hr.next
  rw [encLE_length] at hr
  refine R.All.bind (readArr_at hr hT (rawArr_length cw.len xs) rfl cw.dec) ?_
  rintro _ rfl
  exact R.All.pure (decArr_rawArr cw.len xs (fun a ha => cw.inv a (hok a ha)))

/-- C96: a vector written through the library (`WFile`, `write`, `parallel_write`) has that format and is read back unchanged, with any
two numbers of threads. -/
theorem C96_roundtrip (T T' : Nat) (hT : 0 < T) (hT' : 0 < T') (cw : Codec W) (xs : List W) (hok : ∀ x ∈ xs, cw.ok x)
    (hlen : cw.size * xs.length < 2 ^ 63) (pad : Nat) :
    (writeVec T cw xs).All (fun bs => bs = Spec.vecFile cw xs) ∧
    (writeVec T cw xs >>= fun bs => readVec T' cw ⟨bs, pad⟩).All (fun ys => ys = xs) := by
  have hw : (writeVec T cw xs).All (fun bs => bs = Spec.vecFile cw xs) := by
    unfold writeVec
    refine R.All.bind (openW_all (by omega)) (fun f hf => ?_)
    refine R.All.bind (wBytes_all hf _ (by simp only [encLE_length, List.length_nil]; omega)) (fun f hf => ?_)
    refine R.All.bind (parWrite_all hf hT _ (rawArr_length cw.len xs) (by simp [encLE_length])) (fun f hf => ?_)
    refine R.All.pure ?_
    have e : 8 + cw.size * xs.length = (encLE 8 xs.length ++ rawArr cw.enc xs).length := by
      rw [List.length_append, encLE_length, rawArr_length cw.len]
    rw [List.nil_append, e] at hf
    rw [hf.done, Spec.vecFile, Spec.vecFileWith, encLE_eq]; rfl
  refine ⟨hw, R.All.bind hw ?_⟩
  rintro _ rfl
  have := C96_read_vector T' hT' cw xs hok hlen [] pad
  rwa [List.append_nil] at this

/-- Reading the first elements only, and zeros behind them. -/
theorem decArr_short {cw : Codec W} {xs : List W} (hok : ∀ x ∈ xs, cw.ok x) (k : Nat) :
    decArr cw.size cw.dec (xs.length + k) (rawArr cw.enc xs ++ List.replicate (cw.size * k) 0) =
      xs ++ List.replicate k (cw.dec (List.replicate cw.size 0)) := by
  induction xs with
  | nil =>
    rw [List.length_nil, Nat.zero_add, List.nil_append, rawArr, List.flatMap_nil, List.nil_append]
    apply List.ext_getElem?
    intro i
    rw [decArr, List.getElem?_map, List.getElem?_replicate]
    by_cases hi : i < k
    · rw [List.getElem?_range hi, if_pos hi, Option.map_some, List.drop_replicate, List.take_replicate]
      have : i * cw.size + cw.size ≤ cw.size * k := by
        rw [← Nat.succ_mul, Nat.mul_comm cw.size]; exact Nat.mul_le_mul_right _ hi
      rw [Nat.min_eq_left (by omega)]
    · rw [if_neg hi, List.getElem?_eq_none (by simp; omega)]; rfl
  | cons x xs ih =>
    have ih := ih (fun a ha => hok a (List.mem_cons_of_mem _ ha))
    have hn : (x :: xs).length + k = (xs.length + k) + 1 := by rw [List.length_cons]; omega
    rw [hn, decArr, List.range_succ_eq_map, List.map_cons, List.map_map, List.cons_append, ← ih, rawArr, List.flatMap_cons, List.append_assoc]
    congr 1
    · rw [Nat.zero_mul, List.drop_zero, List.take_append_of_le_length (by rw [cw.len]; omega), List.take_of_length_le (by rw [cw.len]; omega)]
      exact cw.inv x (hok x (List.mem_cons_self ..))
    · rw [decArr]
      apply List.map_congr_left
      intro i _
      show cw.dec _ = _
      rw [Nat.succ_mul, Nat.add_comm (i * cw.size), ← List.drop_drop]
      congr 3
      rw [List.drop_append_of_le_length (by rw [cw.len]; omega), List.drop_of_length_le (by rw [cw.len]; omega), List.nil_append]
      rfl

/-- C96, where it fails: a header that announces more elements than the file holds is not noticed.  Within the mapping the missing
elements are silently zero bytes; beyond it the program reads outside. -/
theorem C96_truncated_violated (T : Nat) (hT : 0 < T) (cw : Codec W) (xs : List W) (hok : ∀ x ∈ xs, cw.ok x) (k : Nat) (hk : 0 < k)
    (hlen : cw.size * (xs.length + k) < 2 ^ 63) (pad : Nat) :
    (cw.size * k ≤ pad → (readVec T cw ⟨Spec.vecFileWith (xs.length + k) cw xs, pad⟩).All (fun ys =>
      ys = xs ++ List.replicate k (cw.dec (List.replicate cw.size 0)))) ∧
    (pad < cw.size * k → (readVec T cw ⟨Spec.vecFileWith (xs.length + k) cw xs, pad⟩).Outside) := by
  have hx : xs.length + k < 2 ^ 63 := Nat.lt_of_le_of_lt (Nat.le_mul_of_pos_left _ cw.pos) hlen
  have hr0 : Rest ⟨Spec.vecFileWith (xs.length + k) cw xs, pad⟩ 0 (encLE 8 (xs.length + k) ++ (rawArr cw.enc xs ++ List.replicate pad 0)) := by
    have := rest_file (bs := Spec.vecFileWith (xs.length + k) cw xs) (pad := pad)
    rw [encLE_eq]
    simpa only [Spec.vecFileWith, List.append_assoc, rawArr] using this
  have hr := hr0.next
  rw [encLE_length] at hr
  have hd := rdLE_at hr0 (encLE_length ..)
  rw [decLE_encLE (k := 8) (by omega)] at hd
  refine ⟨fun hp => ?_, fun hp => ?_⟩
  · unfold readVec
    refine R.All.step hd ?_
    dsimp only
    rw [if_neg (by omega)]
    obtain ⟨q, rfl⟩ : ∃ q, pad = cw.size * k + q := ⟨pad - cw.size * k, by omega⟩
    rw [← List.replicate_append_replicate, ← List.append_assoc] at hr
    refine R.All.bind (readArr_at hr hT (by rw [List.length_append, rawArr_length cw.len, List.length_replicate, ← Nat.mul_add]) rfl cw.dec) ?_
    rintro _ rfl
    exact R.All.pure (decArr_short hok k)
  · unfold readVec
    refine R.Outside.step hd ?_
    dsimp only
    rw [if_neg (by omega)]
    refine R.Outside.bind_left (readArr_outside hT ?_ ?_ _)
    · exact Nat.mul_pos cw.pos (by omega)
    · rw [Mapping.mem_length]
      show (Spec.vecFileWith (xs.length + k) cw xs).length + pad < _
      rw [Spec.vecFileWith, ← encLE_eq, List.length_append, encLE_length]
      have : (xs.flatMap cw.enc).length = cw.size * xs.length := rawArr_length cw.len xs
      rw [this, Nat.mul_add]; omega

/-- The vector `3, -1` of `int32_t` meets the hypotheses of C96; its file is the one expected. -/
example : (∀ x ∈ [3, -1], (codecInt 4 (by decide)).ok x) ∧ (codecInt 4 (by decide)).size * [(3 : Int), -1].length < 2 ^ 63 ∧
    Spec.vecFile (codecInt 4 (by decide)) [3, -1] = [2, 0, 0, 0, 0, 0, 0, 0, 3, 0, 0, 0, 255, 255, 255, 255] ∧
    (codecInt 4 (by decide)).size * 7 ≤ 4080 := by
  refine ⟨?_, by decide, by decide, by decide⟩
  intro x hx
  rcases List.mem_cons.mp hx with rfl | hx
  · exact ⟨by decide, by decide⟩
  · rcases List.mem_cons.mp hx with rfl | hx
    · exact ⟨by decide, by decide⟩
    · cases hx

/-- There is an execution. -/
theorem readVec_any (T : Nat) (cw : Codec W) (μ : Mapping) : (readVec T cw μ).Any := by
  unfold readVec
  refine R.Any.bind (R.Any.lift _) (fun q => ?_)
  dsimp only
  split
  · exact R.Any.lift _
  · exact R.Any.bind (readArr_any ..) (fun _ => R.Any.pure _)

/-! ## C97 -/

/-- Thread 1 runs before thread 0. -/
theorem interleave_second {α : Type} (a b : List α) (k : Nat) : Interleave (a :: b :: List.replicate k []) (b ++ a) := by
  induction b with
  | nil =>
    have := interleave_flatten (a :: [] :: List.replicate k [])
    simpa using this
  | cons x b ih => exact .step (i := 1) rfl ih

/-- Two contiguous blocks of iterations, as the schedule `static` assigns them. -/
theorem OmpFor.two {m T k : Nat} (hT : 2 ≤ T) (hk : k ≤ m) :
    OmpFor m T (List.range k :: List.range' k (m - k) :: List.replicate (T - 2) []) where
  threads := by simp; omega
  all := by
    have : List.range m = List.range k ++ List.range' k (m - k) := by
      have := List.range'_append_1 (s := 0) (m := k) (n := m - k)
      rw [Nat.zero_add] at this
      rw [List.range_eq_range', List.range_eq_range', this]; congr 1; omega
    simp [this]
  inc := by
    intro l hl
    rcases List.mem_cons.mp hl with rfl | hl
    · exact range_pairwise k
    · rcases List.mem_cons.mp hl with rfl | hl
      · exact List.pairwise_lt_range'
      · rw [(List.mem_replicate.mp hl).2]; exact List.Pairwise.nil

theorem R.All.exact {α : Type} {p : R α} {a : α} (h : p.All (fun b => b = a)) (hp : p.Any) : p.Out (.ok a) := by
  obtain ⟨o, ho⟩ := hp
  obtain ⟨b, rfl, rfl⟩ := h o ho
  exact ho

/-- The order in which the edges `es` are taken by the loop with the iterations `C`. -/
theorem filterMap_unw (es : List (Nat × Nat)) (C : List Nat) :
    C.filterMap (fun e => (es.map unw)[e]?) = (C.filterMap (fun e => es[e]?)).map unw := by
  rw [List.map_filterMap]
  congr 1
  funext e
  rw [List.getElem?_map]

theorem nbrs_unw (es : List (Nat × Nat)) (v : Nat) :
    (((es.map unw).filter (fun e => e.1 == v)).map (fun e => e.2)).map Prod.fst = Spec.nbrs es v := by
  rw [List.filter_map, List.map_map, List.map_map]; rfl

theorem convertAt_any {lw ow T : Nat} (hT : 0 < T) [Nonempty W] (wgt : Bool) (c : Coo W) (sched : List ScatAct) :
    (convertAt lw ow T wgt c sched).Any := by
  obtain ⟨d⟩ := ‹Nonempty W›
  have : Nonempty (CsrJunk W) := ⟨⟨fun _ => 0, fun _ => 0, fun _ => d⟩⟩
  unfold convertAt countDegrees
  refine R.Any.bind R.Any.any (fun _ => R.Any.bind (R.Any.bind R.Any.any (fun _ => R.Any.bind R.Any.any (fun _ =>
    R.Any.bind R.Any.any (fun _ => R.Any.bind (R.Any.choose (OmpFor.one _ _ hT)) (fun _ => R.Any.bind (R.Any.par ..) (fun _ =>
    R.Any.bind (R.Any.choose (OmpFor.one _ _ hT)) (fun _ => R.Any.bind (R.Any.par ..) (fun _ => R.Any.par ..))))))))
    (fun _ => R.Any.bind (R.Any.par ..) (fun _ => R.Any.bind (R.Any.lift _) (fun _ => R.Any.pure _))))

/-- The outputs of the README program: the neighbours of vertex 0 appear in the order in which the threads take the edges in the last loop
of the conversion. -/
theorem readme_out (P : Params Unit) (hwk : P.wk = wNone) (hT : 0 < P.T) (hlb : 0 < P.lb) (μ : Mapping) (hpad : 0 < μ.pad)
    (fn : List Byte) (h : Spec.PlainEdgeFile μ.bytes fn) (hmax : Spec.maxLabel (Spec.edges μ.bytes) + 1 < 2 ^ (8 * P.lb))
    (hfit : Spec.OffsetsFit (8 * P.lb) (Spec.maxLabel (Spec.edges μ.bytes) + 1))
    (hm : (Spec.edges μ.bytes).length < 2 ^ (8 * P.ob)) (o : M (List Byte)) :
    (readmeProg P μ fn).Out o ↔ ∃ its sched, OmpFor (Spec.edges μ.bytes).length P.T its ∧
      Interleave (its.map (fun es => es.flatMap (scatIter false))) sched ∧
      o = .ok (Spec.readmeOutput (Spec.maxLabel (Spec.edges μ.bytes) + 1) (Spec.edges μ.bytes).length
        (Spec.nbrs ((caps sched).filterMap (fun e => (Spec.edges μ.bytes)[e]?)) 0)) := by
  have hlab : ∀ e ∈ Spec.edges μ.bytes, e.1 < 2 ^ (8 * P.lb) ∧ e.2 < 2 ^ (8 * P.lb) := by
    intro e he
    have := le_maxLabel he
    omega
  have hcoo := readCooFmt_plain P hwk hT {} μ hpad fn h hlab (by rw [storedAll_plain]; simpa using hm)
  have hcoo' := hcoo.exact (cooFmt_any P {} μ 0 .edgeList)
  have hn := cooOf_n (lw := 8 * P.lb) (by omega) hmax
  have hh := cooOf_holds (8 * P.lb) {} false ((Spec.edges μ.bytes).map unw)
  rw [storedAll_plain] at hh
  generalize cooOf (8 * P.lb) {} false ((Spec.edges μ.bytes).map unw) = c at hn hh hcoo hcoo'
  have hcm : c.m = (Spec.edges μ.bytes).length := by rw [hh.m, List.length_map]
  have hw : P.wk.wgt = false := by rw [hwk]; rfl
  have hl : ∀ e ∈ (Spec.edges μ.bytes).map unw, e.1 < c.n := by
    intro e he
    obtain ⟨a, ha, rfl⟩ := List.mem_map.mp he
    have := le_maxLabel ha
    rw [hn]; simp only [unw]; omega
  -- the output for a CSR with the rows in this order
  have hprint : ∀ (r : Csr Unit) (sched : List ScatAct), r.m = c.m →
      IsCsr r false (groupRows c.n ((caps sched).filterMap (fun e => ((Spec.edges μ.bytes).map unw)[e]?))) →
      r.n = Spec.maxLabel (Spec.edges μ.bytes) + 1 ∧
      neighbors (8 * P.lb) (8 * P.ob) r 0 = .ok (Spec.nbrs ((caps sched).filterMap (fun e => (Spec.edges μ.bytes)[e]?)) 0) := by
    intro r sched h1 h2
    have hrn : r.n = c.n := by rw [h2.n]; simp [groupRows]
    refine ⟨by rw [hrn, hn], ?_⟩
    rw [(C57_neighbors (8 * P.lb) (8 * P.ob) false r h2.valid (by rw [hrn, hn]; omega) (by rw [h1, hcm]; exact hm) 0 (by rw [hrn, hn]; omega)).1,
      h2.row (groupRows_get _ (by rw [hn]; omega)), filterMap_unw, nbrs_unw]
  have hat := fun {its : List (List Nat)} (hi : OmpFor c.m P.T its) {sched : List ScatAct}
    (hs : Interleave (its.map (fun es => es.flatMap (scatIter false))) sched) =>
    convertAt_all (lw := 8 * P.lb) (ow := 8 * P.ob) hT hh hl (by rw [hcm]; exact hm) (by rw [hn]; exact hfit) hi hs
  have hty := plain_usedType h
  constructor
  · intro ho
    unfold readmeProg readCsr at ho
    rw [hty] at ho
    obtain ⟨o1, ho1, ho⟩ := ho
    obtain ⟨o2, rfl, ho1⟩ := ho1
    dsimp only at ho1
    rw [if_pos (by decide)] at ho1
    obtain ⟨o3, ho3, ho1⟩ := ho1
    obtain ⟨q, rfl, rfl⟩ := hcoo o3 ho3
    obtain ⟨o4, ho4, ho1⟩ := ho1
    rw [hw] at ho4
    obtain ⟨its, sched, hi, hs, ho4⟩ := (convertCoo_out hT).mp ho4
    obtain ⟨r, rfl, h1, _, _, h2⟩ := hat hi hs o4 ho4
    cases ho1
    obtain ⟨p1, p2⟩ := hprint r sched h1 h2
    refine ⟨its, sched, by rw [← hcm]; exact hi, hs, ?_⟩
    obtain ⟨o5, rfl, ho⟩ := ho
    rw [p2] at ho
    rw [show o = _ from ho, p1, h1, hcm]
    simp [Spec.readmeOutput, Spec.showNat, str]
  · rintro ⟨its, sched, hi, hs, rfl⟩
    rw [← hcm] at hi
    obtain ⟨o4, ho4⟩ := convertAt_any (lw := 8 * P.lb) (ow := 8 * P.ob) hT false c sched
    obtain ⟨r, rfl, h1, _, _, h2⟩ := hat hi hs o4 ho4
    obtain ⟨p1, p2⟩ := hprint r sched h1 h2
    refine ⟨.ok (r, 0), ⟨.ok .edgeList, by rw [hty]; rfl, ?_⟩, .ok _, p2.symm, ?_⟩
    · dsimp only
      rw [if_pos (by decide)]
      refine ⟨_, hcoo', .ok r, ?_, rfl⟩
      rw [hw]
      exact (convertCoo_out hT).mpr ⟨its, sched, hi, hs, ho4⟩
    · show _ = Except.ok _
      dsimp only
      rw [p1, h1, hcm]
      simp [Spec.readmeOutput, Spec.showNat, str]

/-- C97: on an edge list file the README program prints the largest label plus one, the number of edges and, one per line, the second
vertices of the lines whose first vertex is 0: in the order of the file with one thread, in some order otherwise. -/
theorem C97_readme_partial (P : Params Unit) (hwk : P.wk = wNone) (hT : 0 < P.T) (hlb : 0 < P.lb) (μ : Mapping) (hpad : 0 < μ.pad)
    (fn : List Byte) (h : Spec.PlainEdgeFile μ.bytes fn) (hmax : Spec.maxLabel (Spec.edges μ.bytes) + 1 < 2 ^ (8 * P.lb))
    (hfit : Spec.OffsetsFit (8 * P.lb) (Spec.maxLabel (Spec.edges μ.bytes) + 1))
    (hm : (Spec.edges μ.bytes).length < 2 ^ (8 * P.ob)) :
    (readmeProg P μ fn).All (fun out => ∃ ns, ns.Perm (Spec.nbrs (Spec.edges μ.bytes) 0) ∧ (P.T = 1 → ns = Spec.nbrs (Spec.edges μ.bytes) 0) ∧
      out = Spec.readmeOutput (Spec.maxLabel (Spec.edges μ.bytes) + 1) (Spec.edges μ.bytes).length ns) := by
  intro o ho
  obtain ⟨its, sched, hi, hs, rfl⟩ := (readme_out P hwk hT hlb μ hpad fn h hmax hfit hm o).mp ho
  have hperm := hs.perm
  rw [flatten_iters] at hperm
  have hc := caps_perm hperm
  rw [caps_iters] at hc
  refine ⟨_, rfl, _, ?_, ?_, rfl⟩
  · have := (hc.trans hi.all).filterMap (fun e => (Spec.edges μ.bytes)[e]?)
    rw [filterMap_getElem?_range] at this
    exact (this.filter _).map _
  · intro h1
    rw [h1] at hi
    rw [hi.seq] at hs
    rw [Interleave.single hs, caps_iters, filterMap_getElem?_range]

/-- C97, where it fails: with two threads or more the order of the file is not kept.  For every `k`, in one execution the neighbours from the
edges after the first `k` come before the others (the threads take two contiguous blocks, the second thread is faster). -/
theorem C97_order_violated (P : Params Unit) (hwk : P.wk = wNone) (hT : 2 ≤ P.T) (hlb : 0 < P.lb) (μ : Mapping) (hpad : 0 < μ.pad)
    (fn : List Byte) (h : Spec.PlainEdgeFile μ.bytes fn) (hmax : Spec.maxLabel (Spec.edges μ.bytes) + 1 < 2 ^ (8 * P.lb))
    (hfit : Spec.OffsetsFit (8 * P.lb) (Spec.maxLabel (Spec.edges μ.bytes) + 1))
    (hm : (Spec.edges μ.bytes).length < 2 ^ (8 * P.ob)) (k : Nat) (hk : k ≤ (Spec.edges μ.bytes).length) :
    (readmeProg P μ fn).Out (.ok (Spec.readmeOutput (Spec.maxLabel (Spec.edges μ.bytes) + 1) (Spec.edges μ.bytes).length
      (Spec.nbrs ((Spec.edges μ.bytes).drop k) 0 ++ Spec.nbrs ((Spec.edges μ.bytes).take k) 0))) := by
  have hs := interleave_second ((List.range k).flatMap (scatIter false)) ((List.range' k ((Spec.edges μ.bytes).length - k)).flatMap (scatIter false)) (P.T - 2)
  refine (readme_out P hwk (by omega) hlb μ hpad fn h hmax hfit hm _).mpr ⟨_, _, OmpFor.two hT hk, (by simpa using hs), ?_⟩
  have hlook : ∀ (l : List (Nat × Nat)) (a b : Nat), a + b ≤ l.length → (List.range' a b).filterMap (fun e => l[e]?) = (l.drop a).take b := by
    intro l a b
    induction b generalizing a with
    | zero => intro _; simp
    | succ b ih =>
      intro hab
      have ha : a < l.length := by omega
      rw [List.range'_succ, List.filterMap_cons, List.getElem?_eq_getElem ha, ih (a + 1) (by omega), List.drop_eq_getElem_cons ha]
      rfl
  rw [caps_append, caps_iters, caps_iters, List.filterMap_append, List.range_eq_range', hlook _ _ _ (by omega), hlook _ _ _ (by omega),
    List.drop_zero, List.take_of_length_le (l := (Spec.edges μ.bytes).drop k) (by simp)]
  simp only [Spec.nbrs, List.filter_append, List.map_append]

/-- The file `toy.el` of the README. -/
def toyFile : Mapping := ⟨str "0 4\n4 3\n0 5\n0 9\n", 4080⟩

theorem toyFile_plain : Spec.PlainEdgeFile toyFile.bytes (str "toy.el") := by
  refine ⟨⟨?_, by decide⟩, by decide, by decide, by decide⟩
  have : ∀ l ∈ Spec.lines toyFile.bytes, Spec.ints l = [] ∨ (Spec.edge l).isSome := by decide
  intro l hl
  rcases this l hl with h | h
  · exact .inl h
  · exact .inr (Option.isSome_iff_exists.mp h)

theorem toyFile_edges : Spec.edges toyFile.bytes = [(0, 4), (4, 3), (0, 5), (0, 9)] := by decide

/-- `toy.el`, with the types of `Graph`, meets the hypotheses of `C97_readme_partial` and `C97_order_violated`.  With one thread the output is the one
in the README; with two or more threads there is an execution that prints `5 9 4`. -/
example (P : Params Unit) (hwk : P.wk = wNone) (hT : 0 < P.T) (hlb : P.lb = 4) (hob : P.ob = 4) :
    (P.T = 1 → (readmeProg P toyFile (str "toy.el")).All (fun out =>
      out = str "number of vertices: 10\nnumber of edges: 4\nvertex 0's neighbors:\n4\n5\n9\n")) ∧
    (2 ≤ P.T → (readmeProg P toyFile (str "toy.el")).Out
      (.ok (str "number of vertices: 10\nnumber of edges: 4\nvertex 0's neighbors:\n5\n9\n4\n"))) := by
  have hmax : Spec.maxLabel (Spec.edges toyFile.bytes) + 1 < 2 ^ (8 * P.lb) := by rw [toyFile_edges, hlb]; decide
  have hfit : Spec.OffsetsFit (8 * P.lb) (Spec.maxLabel (Spec.edges toyFile.bytes) + 1) := .inr (by rw [toyFile_edges, hlb]; decide)
  have hm : (Spec.edges toyFile.bytes).length < 2 ^ (8 * P.ob) := by rw [toyFile_edges, hob]; decide
  refine ⟨fun h1 => ?_, fun h2 => ?_⟩
  · refine (C97_readme_partial P hwk hT (by omega) toyFile (by decide) _ toyFile_plain hmax hfit hm).mono ?_
    rintro out ⟨ns, _, h, rfl⟩
    rw [h h1, toyFile_edges]; decide
  · have := C97_order_violated P hwk h2 (by omega) toyFile (by decide) _ toyFile_plain hmax hfit hm 2 (by rw [toyFile_edges]; decide)
    rw [toyFile_edges] at this
    exact this

end Pigo
