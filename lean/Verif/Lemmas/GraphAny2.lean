import Verif.Lemmas.GraphAny

/-!
# `read_graph_` on arbitrary bytes: regions, plan, execution
-/

namespace Pigo

variable {μ : Mapping} {e : Nat}

/-- What precedes the next integer is not a comment sign. -/
theorem toStop_before_nc : ∀ (b : Bool) (u : List Byte) (c : Byte) (t : List Byte), toStop isDigit b u = c :: t →
    ∃ pre, u = pre ++ c :: t ∧ (pre = [] → b = false) ∧ EndsNC pre := by
  intro b u
  induction u generalizing b with
  | nil => intro c t h; simp [toStop] at h
  | cons a u ih =>
    intro c t h
    have glue : ∀ pre : List Byte, EndsNC pre → (pre = [] → isCom a = false) → EndsNC (a :: pre) := by
      intro pre hp h0 d hd
      cases pre with
      | nil => simp at hd; subst hd; exact h0 rfl
      | cons q pre => rw [List.getLast?_cons_cons] at hd; exact hp d hd
    cases b with
    | true =>
      rw [toStop] at h
      by_cases ha : (a == nl) = true
      · rw [if_pos ha] at h
        obtain ⟨pre, h1, _, h3⟩ := ih false c t h
        refine ⟨a :: pre, by rw [h1]; rfl, by simp, glue pre h3 (fun _ => ?_)⟩
        rw [beq_iff_eq.mp ha]; rfl
      · rw [if_neg ha] at h
        obtain ⟨pre, h1, h2, h3⟩ := ih true c t h
        exact ⟨a :: pre, by rw [h1]; rfl, by simp, glue pre h3 (fun h => by cases h2 h)⟩
    | false =>
      rw [toStop] at h
      by_cases ha : isCom a = true
      · rw [if_pos ha] at h
        obtain ⟨pre, h1, h2, h3⟩ := ih true c t h
        exact ⟨a :: pre, by rw [h1]; rfl, by simp, glue pre h3 (fun h => by cases h2 h)⟩
      · rw [if_neg ha] at h
        by_cases hd : isDigit a = true
        · rw [if_pos hd] at h
          refine ⟨[], by rw [h]; rfl, fun _ => rfl, ?_⟩
          intro c hc; simp at hc
        · rw [if_neg hd] at h
          obtain ⟨pre, h1, _, h3⟩ := ih false c t h
          exact ⟨a :: pre, by rw [h1]; rfl, by simp, glue pre h3 (fun _ => by simpa using ha)⟩

theorem nextIntL_before {u : List Byte} {c : Byte} {t : List Byte} (h : nextIntL u = c :: t) :
    ∃ pre x, u = pre ++ x :: c :: t ∧ isCom x = false := by
  obtain ⟨pre, h1, _, h3⟩ := toStop_before_nc false (u.dropWhile isDigit) c t h
  have hd : isDigit c = true := nextIntL_head u c t h
  obtain ⟨p, hp⟩ := dropWhile_suffix' isDigit u
  rcases List.eq_nil_or_concat pre with rfl | ⟨q, x, rfl⟩
  · have := head_dropDigits u c t h1
    rw [hd] at this; cases this
  · rw [List.concat_eq_append] at h1 h3
    exact ⟨p ++ q, x, by rw [← hp, h1]; simp, h3 x (by simp)⟩

/-- If `G ++ c :: t` is a suffix of a text in which `c :: t` comes after a byte that is no comment sign, `G` does not end with one. -/
theorem endsNC_of_before {s G pre t : List Byte} {c x : Byte} (hs : s = pre ++ x :: c :: t) (hG : G ++ c :: t <:+ s)
    (hx : isCom x = false) : EndsNC G := by
  intro d hd
  rcases List.eq_nil_or_concat G with rfl | ⟨q, y, rfl⟩
  · simp at hd
  · rw [List.concat_eq_append] at hG hd
    obtain ⟨p, hp⟩ := hG
    have hd' : y = d := by simpa using hd
    subst hd'
    have h : (p ++ q) ++ y :: c :: t = pre ++ x :: c :: t := by rw [← hs, ← hp]; simp
    have h2 := List.append_inj_right' h (by simp)
    injection h2 with h2 _
    rw [h2]; exact hx

/-- What both passes do in a region: it counts `a` newlines and `b` integers, and the second pass stores accordingly. -/
structure RegionDoes (μ : Mapping) (lw ow : Nat) (R : Reader) (a b : Nat) : Prop where
  count : ∃ z, graphCountAll μ R = .ok ⟨a, b, z⟩
  set : ∀ n, n < 2 ^ lw → ∀ st : GSt, st.ep + b < 2 ^ ow →
    ∃ st' l, graphSetN μ lw ow n (R.e - R.d) st R = .ok st' ∧ st'.acts = st.acts ++ l ∧ Stores lw n st.off st.ep a (st.ep + b) l

theorem region_empty (lw ow : Nat) {R : Reader} (h : R.e ≤ R.d) : RegionDoes μ lw ow R 0 0 := by
  have hg : R.good = false := by simp [Reader.good]; omega
  constructor
  · refine ⟨false, ?_⟩
    rw [graphCountAll, Nat.sub_eq_zero_of_le h, whileGood, hg]; rfl
  · intro n _ st _
    refine ⟨st, [], ?_, by simp, ⟨by simp, by simp, fun o h1 h2 => by omega⟩⟩
    rw [Nat.sub_eq_zero_of_le h, graphSetN, hg]; rfl

theorem region_text (lw ow : Nat) {G : List Byte} (ht : TailOk μ e) (v : View μ e G) (he : EndsNC G) (hp : Pos G) :
    ∃ a b, RegionDoes μ lw ow (rd e G) a b ∧ a + b ≤ G.length := by
  obtain ⟨a, b, hw, hab⟩ := walk_exists _ G (Nat.le_refl _) he
  refine ⟨a, b, ⟨?_, ?_⟩, hab⟩
  · obtain ⟨z, r, h⟩ := count_any ht G.length G a b ⟨0, 0, false⟩ v (Nat.le_refl _) he hw
    refine ⟨z, ?_⟩
    rw [graphCountAll, v.sub, h, ok_bind]
    simp
  · intro n hn st hep
    rw [v.sub]
    exact set_any ht hn G.length G a b st v (Nat.le_refl _) he hp hw hep

theorem pos_of_digit {s : List Byte} (h : ∀ c t, s = c :: t → isDigit c = true) : Pos s := by
  cases s with
  | nil => trivial
  | cons c t => exact .inl (h c t rfl)

/-- The region between `S` and `X`. -/
theorem region_between (lw ow : Nat) {s S X : List Byte} (v : View μ e s) (ht : TailOk μ e) (he : EndsNC s) (hS : S <:+ s) (hX : X <:+ s)
    (hSd : ∀ c t, S = c :: t → isDigit c = true) (hXd : ∀ c t, X = c :: t → isDigit c = true)
    (hXb : ∀ c t, X = c :: t → ∃ pre x, s = pre ++ x :: c :: t ∧ isCom x = false) :
    ∃ a b, RegionDoes μ lw ow ((rd e S).smallerEnd (rd e X)) a b ∧ a + b ≤ s.length := by
  have vS := v.of_suffix hS
  have vX := v.of_suffix hX
  have hSl := hS.length_le
  cases hx : X with
  | nil =>
    have h1 : (rd e S).smallerEnd (rd e []) = rd e S := by
      unfold Reader.smallerEnd rd
      simp
    rw [h1]
    obtain ⟨a, b, h2, h3⟩ := region_text lw ow ht vS (he.suffix hS) (pos_of_digit hSd)
    exact ⟨a, b, h2, by omega⟩
  | cons c t =>
    rw [hx] at vX hX
    by_cases hlen : (c :: t).length < S.length
    · obtain ⟨G, hG⟩ := List.suffix_of_suffix_length_le hX hS (by omega)
      have hv : View μ e (G ++ c :: t) := by rw [hG]; exact vS
      have h1 := smallerEnd_rd hv
      rw [hG] at h1
      rw [h1]
      obtain ⟨pre, x, hb1, hb2⟩ := hXb c t hx
      have hGn : EndsNC G := endsNC_of_before hb1 (by rw [hG]; exact hS) hb2
      have ht' : TailOk μ (e - (c :: t).length) := ⟨c, vX.get_cons, by
        have := hXd c t hx
        cases hc : isCom c with
        | false => rfl
        | true => rw [isCom_not_digit hc] at this; cases this⟩
      obtain ⟨a, b, h2, h3⟩ := region_text lw ow ht' hv.shrink hGn (pos_of_digit (by
        intro c' t' h
        exact hSd c' (t' ++ c :: t) (by rw [← hG, h]; rfl)))
      refine ⟨a, b, h2, ?_⟩
      have : G.length ≤ S.length := by rw [← hG]; simp
      omega
    · refine ⟨0, 0, region_empty lw ow ?_, Nat.zero_le _⟩
      have := vX.length_le
      unfold Reader.smallerEnd
      split
      · simp only [rd]; omega
      · rename_i h
        simp only [rd, List.length_cons] at h this
        omega

/-- The text after the header. -/
structure AnyState (μ : Mapping) (e : Nat) (s : List Byte) : Prop where
  view : View μ e s
  pad : 0 < μ.pad
  eof : e = μ.bytes.length
  ends : EndsNC s

theorem AnyState.tail {s : List Byte} (g : AnyState μ e s) : TailOk μ e :=
  ⟨0, Mapping.get_pad _ (by rw [g.eof]; exact Nat.le_refl _) (by rw [g.eof]; have := g.pad; omega), rfl⟩

theorem graphRegion_any (lw ow : Nat) {s : List Byte} (g : AnyState μ e s) {T tid : Nat} (hT : tid < T) :
    ∃ R a b, graphRegion μ (rd e s) T tid = .ok R ∧ RegionDoes μ lw ow R a b ∧ a + b ≤ s.length := by
  have hr := g.tail.readable
  have k1 := cut_le s.length T tid (by omega)
  have k2 := cut_le s.length T (tid + 1) (by omega)
  have he : moveToNextInt μ ((rd e s).plus ((tid + 1) * (rd e s).size / T)) = .ok (rd e (nextIntL (s.drop (cut s.length T (tid + 1))))) := by
    rw [size_rd g.view, show (tid + 1) * s.length / T = cut s.length T (tid + 1) from rfl, plus_rd g.view k2,
      moveToNextInt_eq (g.view.of_suffix (List.drop_suffix _ _)) hr]
  have hXb : ∀ c t, nextIntL (s.drop (cut s.length T (tid + 1))) = c :: t → ∃ pre x, s = pre ++ x :: c :: t ∧ isCom x = false := by
    intro c t h
    obtain ⟨pre, x, h1, h2⟩ := nextIntL_before h
    exact ⟨s.take (cut s.length T (tid + 1)) ++ pre, x, by rw [List.append_assoc, ← h1, List.take_append_drop], h2⟩
  have hX : nextIntL (s.drop (cut s.length T (tid + 1))) <:+ s := (nextIntL_suffix _).trans (List.drop_suffix _ _)
  have hs : ∃ S, graphStart μ ((rd e s).plus (tid * (rd e s).size / T)) tid = .ok (rd e S) ∧ S <:+ s ∧ ∀ c t, S = c :: t → isDigit c = true := by
    rw [size_rd g.view, show tid * s.length / T = cut s.length T tid from rfl, plus_rd g.view k1, graphStart]
    by_cases h0 : tid = 0
    · rw [if_neg (by simpa using h0)]
      refine ⟨_, moveToFirstInt_eq (g.view.of_suffix (List.drop_suffix _ _)) hr, (toStop_suffix _ _ _).trans (List.drop_suffix _ _), ?_⟩
      intro c t h
      exact (toStop_head isDigit false _ c t h).1
    · rw [if_pos h0]
      exact ⟨_, moveToNextInt_eq (g.view.of_suffix (List.drop_suffix _ _)) hr, (nextIntL_suffix _).trans (List.drop_suffix _ _),
        nextIntL_head _⟩
  obtain ⟨S, hs1, hs2, hs3⟩ := hs
  obtain ⟨a, b, h1, h2⟩ := region_between lw ow g.view g.tail g.ends hs2 hX hs3 (nextIntL_head _) hXb
  exact ⟨_, a, b, by rw [graphRegion, he, ok_bind, hs1, ok_bind], h1, h2⟩

theorem graphHeader_any {s : List Byte} (v : View μ e s) (hr : Readable μ e) (lw ow : Nat) :
    ∃ n m s', graphHeader μ lw ow (rd e s) = .ok (n, m, rd e s') ∧ s' <:+ s ∧ n < 2 ^ lw ∧ m < 2 ^ ow := by
  have s1 := toStop_suffix isDigit false s
  have v1 := v.of_suffix s1
  rw [graphHeader, moveToFirstInt_eq v hr, ok_bind, readInt_wrapU lw v1, ok_bind]
  simp only
  have s2 : (toDigitL (firstIntL s)).dropWhile isDigit <:+ s := (dropWhile_suffix' _ _).trans ((dropWhile_suffix' _ _).trans s1)
  have v2 := v.of_suffix s2
  rw [moveToNextInt_eq v2 hr, ok_bind]
  have s3 := (nextIntL_suffix ((toDigitL (firstIntL s)).dropWhile isDigit)).trans s2
  have v3 := v.of_suffix s3
  rw [readInt_wrapU ow v3, ok_bind]
  simp only
  have s4 := (dropWhile_suffix' isDigit (toDigitL (nextIntL ((toDigitL (firstIntL s)).dropWhile isDigit)))).trans ((dropWhile_suffix' _ _).trans s3)
  have v4 := v.of_suffix s4
  rw [moveToEol_eq v4, ok_bind]
  have s5 := (dropWhile_suffix' (fun b => b != nl) _).trans s4
  have v5 := v.of_suffix s5
  rw [moveToNextInt_eq v5 hr, ok_bind]
  exact ⟨_, _, _, rfl, (nextIntL_suffix _).trans s5, Nat.mod_lt _ (Nat.two_pow_pos _), Nat.mod_lt _ (Nat.two_pow_pos _)⟩

/-! ## The plan -/

/-- The sum of the first `k` counts. -/
def upTo (A : Nat → Nat) (k : Nat) : Nat := ((List.range k).map A).sum

theorem upTo_succ (A : Nat → Nat) (k : Nat) : upTo A (k + 1) = upTo A k + A k := by
  unfold upTo
  rw [List.range_succ, List.map_append, List.sum_append]; simp

theorem upTo_mono (A : Nat → Nat) {j k : Nat} (h : j ≤ k) : upTo A j ≤ upTo A k := by
  induction k with
  | zero => have : j = 0 := by omega
            subst this; exact Nat.le_refl _
  | succ k ih =>
    by_cases hj : j = k + 1
    · subst hj; exact Nat.le_refl _
    · rw [upTo_succ]; have := ih (by omega); omega

theorem upTo_le (A B : Nat → Nat) (L : Nat) : ∀ k, (∀ i, i < k → A i + B i ≤ L) → upTo A k + upTo B k ≤ k * L
  | 0, _ => by simp [upTo]
  | k+1, h => by
    rw [upTo_succ, upTo_succ, Nat.add_mul, Nat.one_mul]
    have := upTo_le A B L k (fun i hi => h i (by omega))
    have := h k (by omega)
    omega

theorem prefix_upTo (A : Nat → Nat) (acc T i : Nat) (h : i < T) : (prefixSums acc ((List.range T).map A)).getD i 0 = acc + upTo A (i + 1) := by
  rw [prefixSums_getD _ _ _ (by simpa using h), ← List.map_take, List.take_range, Nat.min_eq_left (by omega)]
  rfl

/-- What the plan of an arbitrary text looks like. -/
structure PlanOk (lw ow T L : Nat) (p : GPlan) : Prop where
  base : p.base ≤ 1
  n_ge : p.base ≤ p.n
  n_le : p.n ≤ 1 + T * L
  m_le : p.m ≤ T * L
  readN : p.readN < 2 ^ lw
  readM : p.readM < 2 ^ ow
  offs : ∀ l ∈ p.threads, ∀ o v, .inl (o, v) ∈ l → o ≤ p.n ∧ v ≤ p.m
  eps : ∀ l ∈ p.threads, ∀ i v, .inr (i, v) ∈ l → i < p.m ∧ v < 2 ^ lw
  all : ∀ o, p.base < o → o ≤ p.n → ∃ l ∈ p.threads, ∃ v, .inl (o, v) ∈ l

theorem find_block (A : Nat → Nat) (o : Nat) : ∀ k, 0 < o → o ≤ upTo A k → ∃ i, i < k ∧ upTo A i < o ∧ o ≤ upTo A i + A i
  | 0, h0, h => by simp [upTo] at h; omega
  | k+1, h0, h => by
    by_cases hk : o ≤ upTo A k
    · obtain ⟨i, h1, h2⟩ := find_block A o k h0 hk
      exact ⟨i, by omega, h2⟩
    · exact ⟨k, by omega, by omega, by rw [← upTo_succ]; exact h⟩

theorem graphPlan_any {T : Nat} (hT : 0 < T) (hpad : 0 < μ.pad) (hend : EndsNC μ.bytes) {lw ow : Nat}
    (hlw : T * μ.bytes.length + 2 < 2 ^ lw) (how : T * μ.bytes.length < 2 ^ ow) :
    ∃ p, graphPlan μ lw ow T (fileReader μ) = .ok p ∧ PlanOk lw ow T μ.bytes.length p := by
  have v0 := View.full μ
  have hr0 : Readable μ μ.bytes.length := by unfold Readable; omega
  have hfr : fileReader μ = rd μ.bytes.length μ.bytes := by simp [fileReader, rd]
  obtain ⟨rn, rm, s, h1, hs, hrn, hrm⟩ := graphHeader_any v0 hr0 lw ow
  have g : AnyState μ μ.bytes.length s := ⟨v0.of_suffix hs, hpad, rfl, hend.suffix hs⟩
  have hsl := hs.length_le
  have hex : ∀ tid, ∃ x : Reader × Nat × Nat × Bool, tid < T → graphRegion μ (rd μ.bytes.length s) T tid = .ok x.1 ∧
      RegionDoes μ lw ow x.1 x.2.1 x.2.2.1 ∧ graphCountAll μ x.1 = .ok ⟨x.2.1, x.2.2.1, x.2.2.2⟩ ∧ x.2.1 + x.2.2.1 ≤ μ.bytes.length := by
    intro tid
    by_cases ht : tid < T
    · obtain ⟨R, a, b, i1, i2, i3⟩ := graphRegion_any lw ow g ht
      obtain ⟨z, hz⟩ := i2.count
      exact ⟨(R, a, b, z), fun _ => ⟨i1, i2, hz, by simp only; omega⟩⟩
    · exact ⟨(⟨0, 0⟩, 0, 0, false), fun h => absurd h ht⟩
  obtain ⟨X, hX⟩ := Classical.axiomOfChoice hex
  let A : Nat → Nat := fun t => (X t).2.1
  let B : Nat → Nat := fun t => (X t).2.2.1
  have hsum := upTo_le A B μ.bytes.length T (fun i hi => (hX i hi).2.2.2)
  have hreg : mapE (graphRegion μ (rd μ.bytes.length s) T) (List.range T) = .ok ((List.range T).map (fun t => (X t).1)) :=
    mapE_ok _ _ _ (fun t ht => (hX t (List.mem_range.mp ht)).1)
  have hcnt : mapE (graphCountAll μ) ((List.range T).map (fun t => (X t).1)) =
      .ok ((List.range T).map (fun t => (⟨(X t).2.1, (X t).2.2.1, (X t).2.2.2⟩ : GCount))) :=
    mapE_map_ok _ _ _ _ (fun t ht => (hX t (List.mem_range.mp ht)).2.2.1)
  rw [hfr, graphPlan, h1, ok_bind]
  simp only
  rw [hreg, ok_bind, hcnt, ok_bind]
  simp only [List.map_map]
  generalize hbase : (if ((List.range T).map (fun t => (⟨(X t).2.1, (X t).2.2.1, (X t).2.2.2⟩ : GCount))).any (·.zero) then 0 else 1) = base
  have hb1 : base ≤ 1 := by rw [← hbase]; split <;> omega
  have hnl : (List.range T).map ((fun x : GCount => x.nls) ∘ fun t => (⟨(X t).2.1, (X t).2.2.1, (X t).2.2.2⟩ : GCount)) = (List.range T).map A := rfl
  have hin : (List.range T).map ((fun x : GCount => x.ints) ∘ fun t => (⟨(X t).2.1, (X t).2.2.1, (X t).2.2.2⟩ : GCount)) = (List.range T).map B := rfl
  rw [hnl, hin, prefix_upTo A base T (T - 1) (by omega), prefix_upTo B 0 T (T - 1) (by omega), show T - 1 + 1 = T from by omega, Nat.zero_add,
    Nat.mod_eq_of_lt (show base + upTo A T < 2 ^ lw by omega), Nat.mod_eq_of_lt (show upTo B T < 2 ^ ow by omega)]
  have hset : ∀ t, ∃ y : GSt × List GAct, t < T → graphSetAll μ lw ow (base + upTo A T) base (prefixSums base ((List.range T).map A))
      (prefixSums 0 ((List.range T).map B)) (t, (X t).1) = .ok y.1 ∧ y.1.acts = y.2 ∧
      Stores lw (base + upTo A T) (base + upTo A t) (upTo B t) (A t) (upTo B t + B t) y.2 := by
    intro t
    by_cases ht : t < T
    · have m1 := upTo_mono A (show t + 1 ≤ T by omega)
      have m2 := upTo_mono B (show t + 1 ≤ T by omega)
      rw [upTo_succ] at m1 m2
      have e1 : (if t > 0 then (prefixSums base ((List.range T).map A)).getD (t - 1) 0 else base) % 2 ^ lw = base + upTo A t := by
        by_cases h0 : t > 0
        · rw [if_pos h0, prefix_upTo A base T (t - 1) (by omega), show t - 1 + 1 = t from by omega, Nat.mod_eq_of_lt (by omega)]
        · have : t = 0 := by omega
          subst this
          rw [if_neg h0, Nat.mod_eq_of_lt (by omega)]; simp [upTo]
      have e2 : (if t > 0 then (prefixSums 0 ((List.range T).map B)).getD (t - 1) 0 else 0) % 2 ^ ow = upTo B t := by
        by_cases h0 : t > 0
        · rw [if_pos h0, prefix_upTo B 0 T (t - 1) (by omega), show t - 1 + 1 = t from by omega, Nat.zero_add, Nat.mod_eq_of_lt (by omega)]
        · have : t = 0 := by omega
          subst this
          rw [if_neg h0]; simp [upTo]
      obtain ⟨st', l, j1, j2, j3⟩ := (hX t ht).2.1.set (base + upTo A T) (by omega)
        { off := base + upTo A t, ep := upTo B t, mx := 0, acts := [] } (by simp only; show upTo B t + B t < 2 ^ ow; omega)
      refine ⟨(st', l), fun _ => ⟨?_, by rw [j2]; rfl, j3⟩⟩
      unfold graphSetAll
      simp only
      rw [e1, e2]
      exact j1
    · exact ⟨(⟨0, 0, 0, []⟩, []), fun h => absurd h ht⟩
  obtain ⟨Y, hY⟩ := Classical.axiomOfChoice hset
  have hsets : mapE (graphSetAll μ lw ow (base + upTo A T) base (prefixSums base ((List.range T).map A)) (prefixSums 0 ((List.range T).map B)))
      ((List.range T).zip ((List.range T).map (fun t => (X t).1))) = .ok ((List.range T).map (fun t => (Y t).1)) := by
    rw [zip_map_self]
    exact mapE_map_ok _ _ _ _ (fun t ht => (hY t (List.mem_range.mp ht)).1)
  rw [hsets]
  have hmem : ∀ l ∈ ((List.range T).map (fun t => (Y t).1)).map (·.acts), ∃ t, t < T ∧ l = (Y t).2 := by
    intro l hl
    rw [List.map_map, List.mem_map] at hl
    obtain ⟨t, ht, rfl⟩ := hl
    exact ⟨t, List.mem_range.mp ht, (hY t (List.mem_range.mp ht)).2.1⟩
  refine ⟨_, rfl, ⟨hb1, by simp only; omega, by simp only; omega, by simp only; omega, hrn, hrm, ?_, ?_, ?_⟩⟩
  · intro l hl o w h
    obtain ⟨t, ht, rfl⟩ := hmem l hl
    have m2 := upTo_mono B (show t + 1 ≤ T by omega)
    rw [upTo_succ] at m2
    have := (hY t ht).2.2.offs o w h
    exact ⟨this.2.1, by simp only; omega⟩
  · intro l hl o w h
    obtain ⟨t, ht, rfl⟩ := hmem l hl
    have m2 := upTo_mono B (show t + 1 ≤ T by omega)
    rw [upTo_succ] at m2
    have := (hY t ht).2.2.eps o w h
    exact ⟨by simp only; omega, this.2.2⟩
  · intro o h2 h3
    simp only at h2 h3
    obtain ⟨t, ht, h4, h5⟩ := find_block A (o - base) T (by omega) (by omega)
    obtain ⟨w, hw⟩ := (hY t ht).2.2.all o (by omega) (by omega) h3
    refine ⟨_, ?_, w, hw⟩
    rw [List.map_map, List.mem_map]
    exact ⟨t, List.mem_range.mpr ht, (hY t ht).2.1⟩

end Pigo
