import Verif.Lemmas.GraphAny4

/-!
# `read_graph_` on texts without glued comments: plan and executions
-/

namespace Pigo

variable {W : Type} {μ : Mapping} {e : Nat}

/-- What both passes do in a region with the tokens `ts`. -/
structure RegionToks (μ : Mapping) (lw ow : Nat) (R : Reader) (ts : List Tok) : Prop where
  count : ∃ z, graphCountAll μ R = .ok ⟨nlsOf ts, (runsOf ts).length, z⟩
  set : ∀ n, n < 2 ^ lw → ∀ st : GSt, st.ep + (runsOf ts).length < 2 ^ ow →
    ∃ st', graphSetN μ lw ow n (R.e - R.d) st R = .ok st' ∧ st'.acts = st.acts ++ tokActs lw n st.off st.ep ts ∧
      st'.mx = tokMax lw n st.off st.mx ts

theorem regionToks_empty (lw ow : Nat) {R : Reader} (h : R.e ≤ R.d) : RegionToks μ lw ow R [] := by
  have hg : R.good = false := by simp [Reader.good]; omega
  constructor
  · refine ⟨false, ?_⟩
    rw [graphCountAll, Nat.sub_eq_zero_of_le h, whileGood, hg]; rfl
  · intro n _ st _
    refine ⟨st, ?_, by simp [tokActs], by simp [tokMax]⟩
    rw [Nat.sub_eq_zero_of_le h, graphSetN, hg]; rfl

theorem regionToks_text (lw ow : Nat) {G : List Byte} (ht : TailOk μ e) (v : View μ e G) (he : EndsNC G) (hp : Pos G) (hg : NoGlue G) :
    ∃ ts, RegionToks μ lw ow (rd e G) ts ∧ ts.length ≤ G.length ∧ (G.getLast? = some nl → ts.getLast? = some .nl) := by
  obtain ⟨ts, hw, hab⟩ := toks_exists _ G (Nat.le_refl _) he
  refine ⟨ts, ⟨?_, ?_⟩, hab, hw.ends⟩
  · obtain ⟨z, r, h⟩ := count_any ht G.length G _ _ ⟨0, 0, false⟩ v (Nat.le_refl _) he hw.walk
    refine ⟨z, ?_⟩
    rw [graphCountAll, v.sub, h, ok_bind]
    simp
  · intro n hn st hep
    rw [v.sub]
    exact set_exact ht hn G.length G ts st v (Nat.le_refl _) he hp hg hw hep

/-- The region between `S` and `X`. -/
theorem regionToks_between (lw ow : Nat) {s S X : List Byte} (v : View μ e s) (ht : TailOk μ e) (he : EndsNC s) (hg : NoGlue s)
    (hS : S <:+ s) (hX : X <:+ s)
    (hSd : ∀ c t, S = c :: t → isDigit c = true) (hXd : ∀ c t, X = c :: t → isDigit c = true)
    (hXb : ∀ c t, X = c :: t → ∃ pre x, s = pre ++ x :: c :: t ∧ isCom x = false) :
    ∃ ts, RegionToks μ lw ow ((rd e S).smallerEnd (rd e X)) ts ∧ ts.length ≤ s.length ∧ (S = [] → ts = []) ∧
      (X = [] → S.getLast? = some nl → ts.getLast? = some .nl) := by
  have vS := v.of_suffix hS
  have vX := v.of_suffix hX
  have hSl := hS.length_le
  by_cases hS0 : S = []
  · subst hS0
    refine ⟨[], regionToks_empty lw ow ?_, Nat.zero_le _, fun _ => rfl, fun _ h => by simp at h⟩
    unfold Reader.smallerEnd rd
    split <;> simp at * 
  cases hx : X with
  | nil =>
    have h1 : (rd e S).smallerEnd (rd e []) = rd e S := by
      unfold Reader.smallerEnd rd
      simp
    rw [h1]
    obtain ⟨ts, h2, h3, h4⟩ := regionToks_text lw ow ht vS (he.suffix hS) (pos_of_digit hSd) (hg.suffix hS)
    exact ⟨ts, h2, by omega, fun h => absurd h hS0, fun _ => h4⟩
  | cons c t =>
    rw [hx] at vX hX
    by_cases hlen : (c :: t).length < S.length
    · obtain ⟨G, hG⟩ := List.suffix_of_suffix_length_le hX hS (by omega)
      have hv : View μ e (G ++ c :: t) := by rw [hG]; exact vS
      have h1 := smallerEnd_rd hv
      rw [hG] at h1
      rw [h1]
      obtain ⟨pre, x, hb1, hb2⟩ := hXb c t hx
      have hGn : EndsNC G := endsNC_of_before hb1 (by rw [hG]; exact hS) hb2
      have hGg : NoGlue G := by
        intro p a d q hp ha
        obtain ⟨z, hz⟩ := hS
        exact hg (z ++ p) a d (q ++ c :: t) (by rw [← hz, ← hG, hp]; simp) ha
      have ht' : TailOk μ (e - (c :: t).length) := ⟨c, vX.get_cons, by
        have := hXd c t hx
        cases hc : isCom c with
        | false => rfl
        | true => rw [isCom_not_digit hc] at this; cases this⟩
      obtain ⟨ts, h2, h3, h4⟩ := regionToks_text lw ow ht' hv.shrink hGn (pos_of_digit (by
        intro c' t' h
        exact hSd c' (t' ++ c :: t) (by rw [← hG, h]; rfl))) hGg
      refine ⟨ts, h2, ?_, fun h => absurd h hS0, fun h => by cases h⟩
      have : G.length ≤ S.length := by rw [← hG]; simp
      omega
    · refine ⟨[], regionToks_empty lw ow ?_, Nat.zero_le _, fun _ => rfl, fun h => by cases h⟩
      have := vX.length_le
      unfold Reader.smallerEnd
      split
      · simp only [rd]; omega
      · rename_i h
        simp only [rd, List.length_cons] at h this
        omega

/-- Where thread `tid` starts; `T` stands for the end. -/
def startAny (s : List Byte) (T tid : Nat) : List Byte := if tid = 0 then firstIntL s else nextIntL (s.drop (cut s.length T tid))

theorem startAny_suffix (s : List Byte) (T tid : Nat) : startAny s T tid <:+ s := by
  unfold startAny
  split
  · exact toStop_suffix _ _ _
  · exact (nextIntL_suffix _).trans (List.drop_suffix _ _)

theorem startAny_digit (s : List Byte) (T tid : Nat) : ∀ c t, startAny s T tid = c :: t → isDigit c = true := by
  unfold startAny
  split
  · intro c t h; exact (toStop_head isDigit false _ c t h).1
  · exact nextIntL_head _

theorem startAny_last (s : List Byte) {T : Nat} (hT : 0 < T) : startAny s T T = [] := by
  unfold startAny
  rw [if_neg (by omega), cut_last _ _ hT, List.drop_length]
  rfl

theorem graphRegion_start {s : List Byte} (v : View μ e s) (hr : Readable μ e) {T tid : Nat} (hT : tid < T) :
    graphRegion μ (rd e s) T tid = .ok ((rd e (startAny s T tid)).smallerEnd (rd e (startAny s T (tid + 1)))) := by
  have k1 := cut_le s.length T tid (by omega)
  have k2 := cut_le s.length T (tid + 1) (by omega)
  have he : moveToNextInt μ ((rd e s).plus ((tid + 1) * (rd e s).size / T)) = .ok (rd e (startAny s T (tid + 1))) := by
    rw [size_rd v, show (tid + 1) * s.length / T = cut s.length T (tid + 1) from rfl, plus_rd v k2,
      moveToNextInt_eq (v.of_suffix (List.drop_suffix _ _)) hr]
    rfl
  have hs : graphStart μ ((rd e s).plus (tid * (rd e s).size / T)) tid = .ok (rd e (startAny s T tid)) := by
    rw [size_rd v, show tid * s.length / T = cut s.length T tid from rfl, plus_rd v k1, graphStart]
    unfold startAny
    by_cases h0 : tid = 0
    · subst h0
      rw [if_neg (by simp), if_pos rfl, show cut s.length T 0 = 0 from by simp [cut], List.drop_zero]
      exact moveToFirstInt_eq v hr
    · rw [if_pos h0, if_neg h0]
      exact moveToNextInt_eq (v.of_suffix (List.drop_suffix _ _)) hr
  rw [graphRegion, he, ok_bind, hs, ok_bind]

theorem startAny_before (s : List Byte) (T tid : Nat) : ∀ c t, startAny s T (tid + 1) = c :: t → ∃ pre x, s = pre ++ x :: c :: t ∧ isCom x = false := by
  intro c t h
  unfold startAny at h
  rw [if_neg (by omega)] at h
  obtain ⟨pre, x, h1, h2⟩ := nextIntL_before h
  exact ⟨s.take (cut s.length T (tid + 1)) ++ pre, x, by rw [List.append_assoc, ← h1, List.take_append_drop], h2⟩

/-! ## Concatenating the tokens of the regions -/

/-- The tokens of the first `k` regions. -/
def cat (F : Nat → List Tok) (k : Nat) : List Tok := ((List.range k).map F).flatten

theorem cat_succ (F : Nat → List Tok) (k : Nat) : cat F (k + 1) = cat F k ++ F k := by simp [cat, List.range_succ]

theorem upTo_nls (F : Nat → List Tok) (k : Nat) : upTo (fun t => nlsOf (F t)) k = nlsOf (cat F k) := by
  induction k with
  | zero => simp [upTo, cat, nlsOf]
  | succ k ih => rw [upTo_succ, ih, cat_succ, nlsOf_append]

theorem upTo_ints (F : Nat → List Tok) (k : Nat) : upTo (fun t => (runsOf (F t)).length) k = (runsOf (cat F k)).length := by
  induction k with
  | zero => simp [upTo, cat, runsOf]
  | succ k ih => rw [upTo_succ, ih, cat_succ, runsOf_append, List.length_append]

theorem cat_acts (lw n base : Nat) (F : Nat → List Tok) (k : Nat) :
    ((List.range k).map (fun t => tokActs lw n (base + nlsOf (cat F t)) (runsOf (cat F t)).length (F t))).flatten =
      tokActs lw n base 0 (cat F k) := by
  induction k with
  | zero => simp [cat, tokActs]
  | succ k ih => rw [List.range_succ, List.map_append, List.flatten_append, ih, cat_succ, tokActs_append]; simp

theorem cat_max (lw n base : Nat) (F : Nat → List Tok) (k : Nat) :
    ((List.range k).map (fun t => tokMax lw n (base + nlsOf (cat F t)) 0 (F t))).foldl max 0 = tokMax lw n base 0 (cat F k) := by
  induction k with
  | zero => simp [cat, tokMax]
  | succ k ih =>
    rw [List.range_succ, List.map_append, List.foldl_append, ih, cat_succ, tokMax_append, tokMax_init lw n _ _ (tokMax lw n base 0 _)]
    simp

/-- If every thread whose text reaches the end of the file ends with a newline, so do all tokens. -/
theorem cat_ends {F : Nat → List Tok} {S : Nat → List Byte} (h0 : ∀ t, S t = [] → F t = [])
    (h1 : ∀ t, S t ≠ [] → S (t + 1) = [] → (F t).getLast? = some .nl) : ∀ k, S k = [] → cat F k = [] ∨ (cat F k).getLast? = some .nl
  | 0, _ => .inl rfl
  | k+1, h => by
    rw [cat_succ]
    by_cases hk : S k = []
    · rw [h0 k hk, List.append_nil]; exact cat_ends h0 h1 k hk
    · right
      rw [List.getLast?_append, h1 k hk h]; rfl

theorem graphPlan_toks {T : Nat} (hT : 0 < T) (hpad : 0 < μ.pad) (hend : EndsNC μ.bytes) (hgl : NoGlue μ.bytes) {lw ow : Nat}
    (hlw : T * μ.bytes.length + 2 < 2 ^ lw) (how : T * μ.bytes.length < 2 ^ ow) :
    ∃ rn rm base ts threads, graphPlan μ lw ow T (fileReader μ) = .ok
        { readN := rn, readM := rm, n := base + nlsOf ts, m := (runsOf ts).length, base := base, threads := threads
          colMax := tokMax lw (base + nlsOf ts) base 0 ts } ∧
      threads.flatten = tokActs lw (base + nlsOf ts) base 0 ts ∧ (base = 0 ∨ base = 1) ∧ ts.length ≤ T * μ.bytes.length ∧
      (μ.bytes.getLast? = some nl → ts = [] ∨ ts.getLast? = some .nl) ∧
      ∃ F, threads = (List.range T).map (fun t => tokActs lw (base + nlsOf ts) (base + nlsOf (cat F t)) (runsOf (cat F t)).length (F t)) := by
  have v0 := View.full μ
  have hr0 : Readable μ μ.bytes.length := by unfold Readable; omega
  have hfr : fileReader μ = rd μ.bytes.length μ.bytes := by simp [fileReader, rd]
  obtain ⟨rn, rm, s, h1, hs, hrn, hrm⟩ := graphHeader_any v0 hr0 lw ow
  have g : AnyState μ μ.bytes.length s := ⟨v0.of_suffix hs, hpad, rfl, hend.suffix hs⟩
  have hsl := hs.length_le
  have hex : ∀ tid, ∃ x : List Tok × Bool, 
      RegionToks μ lw ow ((rd μ.bytes.length (startAny s T tid)).smallerEnd (rd μ.bytes.length (startAny s T (tid + 1)))) x.1 ∧
      graphCountAll μ ((rd μ.bytes.length (startAny s T tid)).smallerEnd (rd μ.bytes.length (startAny s T (tid + 1)))) =
        .ok ⟨nlsOf x.1, (runsOf x.1).length, x.2⟩ ∧ x.1.length ≤ μ.bytes.length ∧ (startAny s T tid = [] → x.1 = []) ∧
      (startAny s T (tid + 1) = [] → (startAny s T tid).getLast? = some nl → x.1.getLast? = some .nl) := by
    intro tid
    obtain ⟨ts, i1, i2, i3, i4⟩ := regionToks_between lw ow g.view g.tail g.ends (hgl.suffix hs) (startAny_suffix s T tid)
      (startAny_suffix s T (tid + 1)) (startAny_digit s T tid) (startAny_digit s T (tid + 1)) (startAny_before s T tid)
    obtain ⟨z, hz⟩ := i1.count
    exact ⟨(ts, z), i1, hz, by simp only; omega, i3, i4⟩
  obtain ⟨X, hX⟩ := Classical.axiomOfChoice hex
  let F : Nat → List Tok := fun t => (X t).1
  let A : Nat → Nat := fun t => nlsOf (F t)
  let B : Nat → Nat := fun t => (runsOf (F t)).length
  have hsum : upTo A T + upTo B T ≤ T * μ.bytes.length :=
    upTo_le A B μ.bytes.length T (fun i _ => by
      have := (hX i).2.2.1
      have h2 := nlsOf_add (X i).1
      show nlsOf (X i).1 + (runsOf (X i).1).length ≤ _
      omega)
  have hreg : mapE (graphRegion μ (rd μ.bytes.length s) T) (List.range T) = .ok ((List.range T).map (fun t =>
      (rd μ.bytes.length (startAny s T t)).smallerEnd (rd μ.bytes.length (startAny s T (t + 1))))) :=
    mapE_ok _ _ _ (fun t ht => graphRegion_start g.view g.tail.readable (List.mem_range.mp ht))
  have hcnt : mapE (graphCountAll μ) ((List.range T).map (fun t =>
      (rd μ.bytes.length (startAny s T t)).smallerEnd (rd μ.bytes.length (startAny s T (t + 1))))) =
      .ok ((List.range T).map (fun t => (⟨nlsOf (X t).1, (runsOf (X t).1).length, (X t).2⟩ : GCount))) :=
    mapE_map_ok _ _ _ _ (fun t ht => (hX t).2.1)
  have hnls : upTo A T = nlsOf (cat F T) := upTo_nls F T
  have hints : upTo B T = (runsOf (cat F T)).length := upTo_ints F T
  rw [hfr, graphPlan, h1, ok_bind]
  simp only
  rw [hreg, ok_bind, hcnt, ok_bind]
  simp only [List.map_map]
  generalize hbase : (if ((List.range T).map (fun t => (⟨nlsOf (X t).1, (runsOf (X t).1).length, (X t).2⟩ : GCount))).any (·.zero) then 0 else 1) = base
  have hb1 : base = 0 ∨ base = 1 := by rw [← hbase]; split <;> simp
  have hnl : (List.range T).map ((fun x : GCount => x.nls) ∘ fun t => (⟨nlsOf (X t).1, (runsOf (X t).1).length, (X t).2⟩ : GCount)) = (List.range T).map A := rfl
  have hin : (List.range T).map ((fun x : GCount => x.ints) ∘ fun t => (⟨nlsOf (X t).1, (runsOf (X t).1).length, (X t).2⟩ : GCount)) = (List.range T).map B := rfl
  rw [hnl, hin, prefix_upTo A base T (T - 1) (by omega), prefix_upTo B 0 T (T - 1) (by omega), show T - 1 + 1 = T from by omega, Nat.zero_add,
    Nat.mod_eq_of_lt (show base + upTo A T < 2 ^ lw by omega), Nat.mod_eq_of_lt (show upTo B T < 2 ^ ow by omega)]
  obtain ⟨sts, k1, k2, k3⟩ := mapE_states
    (f := fun t => graphSetAll μ lw ow (base + upTo A T) base (prefixSums base ((List.range T).map A)) (prefixSums 0 ((List.range T).map B))
      (t, (rd μ.bytes.length (startAny s T t)).smallerEnd (rd μ.bytes.length (startAny s T (t + 1)))))
    (A := fun t => tokActs lw (base + upTo A T) (base + nlsOf (cat F t)) (runsOf (cat F t)).length (F t))
    (X := fun t => tokMax lw (base + upTo A T) (base + nlsOf (cat F t)) 0 (F t))
    (l := List.range T) (by
      intro t ht
      have ht := List.mem_range.mp ht
      have m1 := upTo_mono A (show t + 1 ≤ T by omega)
      have m2 := upTo_mono B (show t + 1 ≤ T by omega)
      rw [upTo_succ] at m1 m2
      have e1 : (if t > 0 then (prefixSums base ((List.range T).map A)).getD (t - 1) 0 else base) % 2 ^ lw = base + nlsOf (cat F t) := by
        rw [← upTo_nls F t]
        by_cases h0 : t > 0
        · rw [if_pos h0, prefix_upTo A base T (t - 1) (by omega), show t - 1 + 1 = t from by omega, Nat.mod_eq_of_lt (by omega)]
        · have : t = 0 := by omega
          subst this
          rw [if_neg h0, Nat.mod_eq_of_lt (by omega)]; simp [upTo]
      have e2 : (if t > 0 then (prefixSums 0 ((List.range T).map B)).getD (t - 1) 0 else 0) % 2 ^ ow = (runsOf (cat F t)).length := by
        rw [← upTo_ints F t]
        by_cases h0 : t > 0
        · rw [if_pos h0, prefix_upTo B 0 T (t - 1) (by omega), show t - 1 + 1 = t from by omega, Nat.zero_add, Nat.mod_eq_of_lt (by omega)]
        · have : t = 0 := by omega
          subst this
          rw [if_neg h0]; simp [upTo]
      obtain ⟨st', j1, j2, j3⟩ := (hX t).1.set (base + upTo A T) (by omega)
        { off := base + nlsOf (cat F t), ep := (runsOf (cat F t)).length, mx := 0, acts := [] } (by
          simp only
          rw [← upTo_ints F t]
          show upTo B t + B t < 2 ^ ow
          omega)
      refine ⟨st', ?_, j2, j3⟩
      unfold graphSetAll
      simp only
      rw [e1, e2]
      exact j1)
  have hsets : mapE (graphSetAll μ lw ow (base + upTo A T) base (prefixSums base ((List.range T).map A)) (prefixSums 0 ((List.range T).map B)))
      ((List.range T).zip ((List.range T).map (fun t =>
        (rd μ.bytes.length (startAny s T t)).smallerEnd (rd μ.bytes.length (startAny s T (t + 1)))))) = .ok sts := by
    rw [zip_map_self, mapE_comp]
    exact k1
  rw [hsets]
  refine ⟨rn, rm, base, cat F T, sts.map (·.acts), ?_, ?_, hb1, ?_, ?_, F, by rw [k2, hnls]⟩
  · rw [ok_bind, ← hnls, ← hints]
    congr 2
    rw [← cat_max, ← k3, List.foldl_map]

  · rw [k2, ← hnls]
    exact cat_acts lw _ base F T
  · have := nlsOf_add (cat F T)
    omega
  · intro hl
    refine cat_ends (S := startAny s T) (fun t => (hX t).2.2.2.1) (fun t ha hb => ?_) T (startAny_last s hT)
    refine (hX t).2.2.2.2 hb (getLast_suffix ((startAny_suffix s T t).trans hs) ha hl)

/-- The executions on a text without glued comments that does not end with a comment sign: rows and tail depend on the file
and the number of threads only. -/
theorem loadGraph_toks {T : Nat} (hT : 0 < T) (hpad : 0 < μ.pad) (hend : EndsNC μ.bytes) (hgl : NoGlue μ.bytes) {lw ow : Nat}
    (hlw : T * μ.bytes.length + 2 < 2 ^ lw) (how : T * μ.bytes.length < 2 ^ ow) :
    ∃ rn rm base rows tail, (base = 0 ∨ base = 1) ∧ (μ.bytes.getLast? = some nl → tail = []) ∧
      base + rows.length + 1 < 2 ^ lw ∧ (rows.flatten ++ tail).length < 2 ^ ow ∧
      ∀ out : M (Csr W), LoadGraph μ lw ow T out ↔ ∃ junk : List Nat, junk.length = tail.length ∧
        out = graphFinish lw ow { readN := rn, readM := rm, n := base + rows.length, m := (rows.flatten ++ tail).length, base := base
                                  threads := [], colMax := (rows.flatten.map (rval lw)).foldl max 0 }
          (graphOffsets base rows tail) (rows.flatten.map (rval lw) ++ junk) := by
  obtain ⟨rn, rm, base, ts, threads, h1, h2, h3, h4, h5, _⟩ := graphPlan_toks hT hpad hend hgl hlw how
  obtain ⟨rows, tail, h6, h7⟩ := toks_decompose ts
  have hn := nlsOf_add ts
  subst h6
  rw [nlsOf_toks, runsOf_toks, tokMax_rows] at h1
  rw [nlsOf_toks] at h2
  rw [nlsOf_toks, runsOf_toks] at hn
  refine ⟨rn, rm, base, rows, tail, h3, fun h => h7 (h5 h), by omega, by omega, fun out => ?_⟩
  exact readGraph_of_plan h3 h1 (by rw [h2, tokActs_left]) (by rw [h2, tokActs_right]) (by omega) out

end Pigo
