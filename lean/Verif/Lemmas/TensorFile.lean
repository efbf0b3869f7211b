import Verif.Lemmas.Tensor

/-!
# Tensors from text: all threads, and the stores
-/

namespace Pigo

variable {W : Type} {μ : Mapping} {e : Nat}

/-- A line as classified by `ent`: blank or carrying an entry with `k` coordinates. -/
def TEntOk (lw : Nat) (wk : WKind W) (k : Nat) (ent : List Byte → Option (List Nat × W)) (l : List Byte) : Prop :=
  nl ∉ l ∧ match ent l with
    | none => firstIntL l = []
    | some en => TLaw lw wk l en ∧ en.1.length = k

theorem TLaw.first_ne {lw : Nat} {wk : WKind W} {l : List Byte} {en : List Nat × W} (h : TLaw lw wk l en) : firstIntL l ≠ [] := by
  obtain ⟨_, hne, tail, hc, _⟩ := h
  obtain ⟨xs, w⟩ := en
  obtain ⟨x, xs, rfl⟩ := List.exists_cons_of_ne_nil hne
  exact hc.1

theorem TEntOk.count {lw : Nat} {wk : WKind W} {k : Nat} {ent : List Byte → Option (List Nat × W)} {l : List Byte} (h : TEntOk lw wk k ent l) :
    StepOk μ (tensorCount μ lw wk k) (fun c _ => c + 1) ent l := by
  refine ⟨h.1, ?_⟩
  have := h.2
  cases he : ent l with
  | none => rw [he] at this; exact this
  | some en =>
    rw [he] at this
    obtain ⟨h1, h2⟩ := this
    refine ⟨h1.first_ne, fun e rest s hr v => ?_⟩
    rw [← h2]
    exact tensorCount_line h1 hr s v

theorem TEntOk.set {lw : Nat} {wk : WKind W} {k : Nat} {ent : List Byte → Option (List Nat × W)} {l : List Byte} (h : TEntOk lw wk k ent l) :
    StepOk μ (tensorSet μ lw wk k) (fun st en => (st.1 + 1, st.2 ++ tActs lw wk.wgt k st.1 en)) ent l := by
  refine ⟨h.1, ?_⟩
  have := h.2
  cases he : ent l with
  | none => rw [he] at this; exact this
  | some en =>
    rw [he] at this
    obtain ⟨h1, h2⟩ := this
    refine ⟨h1.first_ne, fun e rest s hr v => ?_⟩
    rw [← h2]
    exact tensorSet_line h1 hr s v

theorem foldl_count {α : Type} (l : List α) (c : Nat) : l.foldl (fun c _ => c + 1) c = c + l.length := by
  induction l generalizing c with
  | nil => rfl
  | cons a l ih => rw [List.foldl_cons, ih, List.length_cons]; omega

/-- The stores of the entries `es` from position `p` on. -/
def tActsOf (lw : Nat) (wgt : Bool) (k : Nat) : Nat → List (List Nat × W) → List (TAct W)
  | _, [] => []
  | p, en :: es => tActs lw wgt k p en ++ tActsOf lw wgt k (p + 1) es

theorem tActsOf_append (lw : Nat) (b : Bool) (k p : Nat) (A B : List (List Nat × W)) :
    tActsOf lw b k p (A ++ B) = tActsOf lw b k p A ++ tActsOf lw b k (p + A.length) B := by
  induction A generalizing p with
  | nil => rfl
  | cons a A ih => simp only [List.cons_append, tActsOf, ih, List.length_cons, List.append_assoc]; rw [show p + 1 + A.length = p + (A.length + 1) by omega]

theorem foldl_tActs (lw : Nat) (b : Bool) (k : Nat) (es : List (List Nat × W)) (st : Nat × List (TAct W)) :
    es.foldl (fun st en => (st.1 + 1, st.2 ++ tActs lw b k st.1 en)) st = (st.1 + es.length, st.2 ++ tActsOf lw b k st.1 es) := by
  induction es generalizing st with
  | nil => simp [tActsOf]
  | cons en es ih => rw [List.foldl_cons, ih]; simp only [tActsOf, List.length_cons, List.append_assoc]; congr 1; omega

/-- The threads' stores, when thread `i` handles the entries `gs[i]`. -/
def tThreads (lw : Nat) (b : Bool) (k : Nat) : Nat → List (List (List Nat × W)) → List (List (TAct W))
  | _, [] => []
  | p, g :: gs => tActsOf lw b k p g :: tThreads lw b k (p + g.length) gs

theorem tThreads_flatten (lw : Nat) (b : Bool) (k p : Nat) (gs : List (List (List Nat × W))) :
    (tThreads lw b k p gs).flatten = tActsOf lw b k p gs.flatten := by
  induction gs generalizing p with
  | nil => rfl
  | cons g gs ih => simp only [tThreads, List.flatten_cons, ih, tActsOf_append]

theorem tThreads_eq_map (lw : Nat) (b : Bool) (k : Nat) (f : Nat → List (List Nat × W)) :
    ∀ (n p a : Nat), tThreads lw b k p ((List.range' a n).map f) =
      (List.range' a n).map (fun t => tActsOf lw b k (p + (((List.range' a (t - a)).map f).flatten).length) (f t))
  | 0, _, _ => rfl
  | n+1, p, a => by
    rw [List.range'_succ, List.map_cons, tThreads, tThreads_eq_map lw b k f n, List.map_cons]
    congr 1
    · rw [Nat.sub_self]; rfl
    · apply List.map_congr_left
      intro t ht
      rw [List.mem_range'] at ht
      obtain ⟨i, hi, rfl⟩ := ht
      congr 1
      rw [show a + 1 + 1 * i - (a+1) = i by omega, show a + 1 + 1 * i - a = i + 1 by omega,
        List.range'_succ, List.map_cons, List.flatten_cons, List.length_append]
      omega

theorem length_range {α : Type} (seg : Nat → List α) (k : Nat) :
    ((List.range k).map (fun tid => (seg tid).length)).sum = (((List.range k).map seg).flatten).length := by
  induction k with
  | zero => simp
  | succ k ih =>
    rw [List.range_succ, List.map_append, List.sum_append, ih]
    simp

theorem mapE_map {α β γ : Type} (l : List α) (f : α → β) (h : β → M γ) (k : α → γ) (hh : ∀ a ∈ l, h (f a) = .ok (k a)) : mapE h (l.map f) = .ok (l.map k) := by
  induction l with
  | nil => rfl
  | cons a l ih =>
    rw [List.map_cons, mapE, hh a (List.mem_cons_self ..), ok_bind, ih (fun b hb => hh b (List.mem_cons_of_mem _ hb))]; rfl

/-- The plan of `Tensor::read_el_` on a file of lines that are blank or carry an entry of the right order. -/
theorem tensorPlan_eq {lw ow k : Nat} {ls : List (List Byte)} {tail : List Byte} {wk : WKind W}
    {ent : List Byte → Option (List Nat × W)} {T : Nat} (hT : 0 < T) (st : ElState μ e ls tail) (hls : ∀ l ∈ ls, TEntOk lw wk k ent l)
    (ho : tensorOrder μ ow wk.wgt (rd e (text ls ++ tail)) = .ok k) :
    ∃ gs : List (List (List Nat × W)), gs.flatten = ls.filterMap ent ∧
      tensorPlan μ lw ow wk T (rd e (text ls ++ tail)) = .ok
        { order := k, m := (ls.filterMap ent).length % 2 ^ ow, threads := tThreads lw wk.wgt k 0 gs } := by
  let seg := fun tid => (segLines (text ls ++ tail) ls T tid).filterMap ent
  have hsegmem : ∀ tid, ∀ l ∈ segLines (text ls ++ tail) ls T tid, l ∈ ls :=
    fun tid l hl => List.mem_of_mem_drop (List.mem_of_mem_take hl)
  have hseg : ((List.range T).map seg).flatten = ls.filterMap ent := by
    have : (List.range T).map seg =
        ((List.range T).map (segLines (text ls ++ tail) ls T)).map (List.filterMap ent) := by
      rw [List.map_map]; rfl
    rw [this, flatten_filterMap, seg_all ls tail st.nonl T hT]
  refine ⟨(List.range T).map seg, hseg, ?_⟩
  have hreg : mapE (elRegion μ (rd e (text ls ++ tail)) T) (List.range T) =
      .ok ((List.range T).map (fun tid => rd (endOf e ls tail T tid) (regionOf ls tail T tid))) :=
    mapE_ok _ _ _ (fun tid ht => (elRegion_eq st (List.mem_range.mp ht)).1)
  have hcount : mapE (tensorCountAll μ lw wk k) ((List.range T).map (fun tid => rd (endOf e ls tail T tid) (regionOf ls tail T tid))) =
      .ok ((List.range T).map (fun tid => (seg tid).length)) := by
    apply mapE_map
    intro tid ht
    obtain ⟨_, v, r⟩ := elRegion_eq st (List.mem_range.mp ht)
    rw [tensorCountAll, v.sub]
    have := while_region (g := garb (text (ls.drop (lineOf (text ls ++ tail) T (tid+1))) ++ tail)) r (garb_spec _).2 _ _ 0
      (fun l hl => (hls l (hsegmem tid l hl)).count (μ := μ)) v (Nat.le_refl _)
    unfold regionOf at *
    rw [this, ok_bind, foldl_count, Nat.zero_add]
  have hset : mapE (tensorSetAll μ lw wk k (prefixSums 0 ((List.range T).map (fun tid => (seg tid).length)))) ((List.range T).zip
        ((List.range T).map (fun tid => rd (endOf e ls tail T tid) (regionOf ls tail T tid)))) =
      .ok ((List.range T).map (fun tid => tActsOf lw wk.wgt k (((List.range tid).map seg).flatten).length (seg tid))) := by
    rw [zip_map_self]
    apply mapE_map
    intro tid ht
    have htT := List.mem_range.mp ht
    obtain ⟨_, v, r⟩ := elRegion_eq st htT
    rw [tensorSetAll]
    simp only
    rw [v.sub]
    have hstart : startOf (prefixSums 0 ((List.range T).map (fun tid => (seg tid).length))) tid = (((List.range tid).map seg).flatten).length := by
      rw [startOf_eq _ _ (by simp; omega), ← List.map_take, List.take_range, Nat.min_eq_left (by omega)]
      exact length_range seg tid
    rw [hstart]
    have := while_region (g := garb (text (ls.drop (lineOf (text ls ++ tail) T (tid+1))) ++ tail)) r (garb_spec _).2 _ _
      (((((List.range tid).map seg).flatten).length, []) : Nat × List (TAct W))
      (fun l hl => (hls l (hsegmem tid l hl)).set (μ := μ)) v (Nat.le_refl _)
    unfold regionOf at *
    rw [this, ok_bind, foldl_tActs]
    simp [seg]
  unfold tensorPlan
  simp only [ho, ok_bind, hreg, hcount, hset]
  congr 2
  · rw [prefixSums_getD _ _ _ (by simp; omega)]
    rw [show T - 1 + 1 = T by omega, List.take_of_length_le (by simp), ← hseg, length_range, Nat.zero_add]
  · have := tThreads_eq_map lw wk.wgt k seg T 0 0
    rw [← List.range_eq_range'] at this
    rw [this]
    apply List.map_congr_left
    intro t _
    simp only [Nat.sub_zero, Nat.zero_add, ← List.range_eq_range']

/-! ## execution -/

/-- Positions of `c_` and `w_` a store touches. -/
def TAct.cpos : TAct W → List Nat
  | .setC i _ => [i]
  | .setW _ _ => []

def TAct.wpos : TAct W → List Nat
  | .setC _ _ => []
  | .setW i _ => [i]

theorem tact_commute (a b : TAct W) (h1 : ∀ i ∈ a.cpos, ∀ j ∈ b.cpos, i ≠ j) (h2 : ∀ i ∈ a.wpos, ∀ j ∈ b.wpos, i ≠ j) : Commute stepT a b := by
  intro s
  obtain ⟨c, w⟩ := s
  cases a with
  | setC i v => cases b with
    | setC j v' =>
      have h : i ≠ j := by simpa [TAct.cpos] using h1
      by_cases hi : i < c.length <;> by_cases hj : j < c.length <;> simp [stepT, store, hi, hj, List.set_comm _ _ h]
    | setW j v' => by_cases hi : i < c.length <;> by_cases hj : j < w.length <;> simp [stepT, store, hi, hj]
  | setW i v => cases b with
    | setC j v' => by_cases hi : i < w.length <;> by_cases hj : j < c.length <;> simp [stepT, store, hi, hj]
    | setW j v' =>
      have h : i ≠ j := by simpa [TAct.wpos] using h2
      by_cases hi : i < w.length <;> by_cases hj : j < w.length <;> simp [stepT, store, hi, hj, List.set_comm _ _ h]

theorem coordActs_pos (base : Nat) (xs : List Nat) : ∀ a ∈ coordActs (W := W) base xs, (∀ i ∈ a.cpos, base ≤ i ∧ i < base + xs.length) ∧ a.wpos = [] := by
  induction xs generalizing base with
  | nil => intro a ha; simp [coordActs] at ha
  | cons x xs ih =>
    intro a ha
    rw [coordActs, List.mem_cons] at ha
    rcases ha with rfl | ha
    · refine ⟨fun i hi => ?_, rfl⟩
      simp only [TAct.cpos, List.mem_singleton] at hi
      subst hi; simp
    · obtain ⟨h1, h2⟩ := ih _ a ha
      refine ⟨fun i hi => ?_, h2⟩
      have := h1 i hi
      simp only [List.length_cons]; omega

theorem tActs_pos {lw : Nat} {b : Bool} {k p : Nat} {en : List Nat × W} (hk : en.1.length = k) : ∀ a ∈ tActs lw b k p en,
    (∀ i ∈ a.cpos, p * k ≤ i ∧ i < (p + 1) * k) ∧ (∀ i ∈ a.wpos, i = p) := by
  intro a ha
  unfold tActs at ha
  rcases List.mem_append.mp ha with ha | ha
  · obtain ⟨h1, h2⟩ := coordActs_pos _ _ a ha
    refine ⟨fun i hi => ?_, by rw [h2]; simp⟩
    have := h1 i hi
    rw [List.length_map, hk] at this
    rw [Nat.succ_mul]; exact this
  · cases b with
    | false => simp at ha
    | true =>
      simp only [if_true, List.mem_singleton] at ha
      subst ha
      exact ⟨by simp [TAct.cpos], by simp [TAct.wpos]⟩

theorem tActsOf_pos {lw : Nat} {b : Bool} {k : Nat} : ∀ {es : List (List Nat × W)} {p : Nat}, (∀ en ∈ es, en.1.length = k) → ∀ a ∈ tActsOf lw b k p es,
    (∀ i ∈ a.cpos, p * k ≤ i ∧ i < (p + es.length) * k) ∧ (∀ i ∈ a.wpos, p ≤ i ∧ i < p + es.length)
  | [], p, _, a, ha => by simp [tActsOf] at ha
  | en :: es, p, h, a, ha => by
    rw [tActsOf, List.mem_append] at ha
    have hm : (p + 1) * k ≤ (p + (es.length + 1)) * k := Nat.mul_le_mul_right _ (by omega)
    have hm' : p * k ≤ (p + 1) * k := Nat.mul_le_mul_right _ (by omega)
    rw [List.length_cons]
    rcases ha with ha | ha
    · obtain ⟨h1, h2⟩ := tActs_pos (h en (by simp)) a ha
      refine ⟨fun i hi => ?_, fun i hi => ?_⟩
      · have := h1 i hi; omega
      · have := h2 i hi; omega
    · obtain ⟨h1, h2⟩ := tActsOf_pos (fun en hen => h en (List.mem_cons_of_mem _ hen)) a ha
      refine ⟨fun i hi => ?_, fun i hi => ?_⟩
      · have := h1 i hi
        rw [show p + 1 + es.length = p + (es.length + 1) by omega] at this
        omega
      · have := h2 i hi; omega

theorem tThreads_pos {lw : Nat} {b : Bool} {k : Nat} : ∀ {gs : List (List (List Nat × W))} {p : Nat}, (∀ g ∈ gs, ∀ en ∈ g, en.1.length = k) →
    ∀ l ∈ tThreads lw b k p gs, ∀ a ∈ l, (∀ i ∈ a.cpos, p * k ≤ i) ∧ (∀ i ∈ a.wpos, p ≤ i)
  | [], p, _, l, hl, _, _ => by simp [tThreads] at hl
  | g :: gs, p, h, l, hl, a, ha => by
    rw [tThreads, List.mem_cons] at hl
    rcases hl with rfl | hl
    · obtain ⟨h1, h2⟩ := tActsOf_pos (h g (by simp)) a ha
      exact ⟨fun i hi => (h1 i hi).1, fun i hi => (h2 i hi).1⟩
    · obtain ⟨h1, h2⟩ := tThreads_pos (fun g' hg' => h g' (List.mem_cons_of_mem _ hg')) l hl a ha
      refine ⟨fun i hi => ?_, fun i hi => ?_⟩
      · have := h1 i hi
        have : p * k ≤ (p + g.length) * k := Nat.mul_le_mul_right _ (by omega)
        omega
      · have := h2 i hi; omega

theorem tThreads_commute {lw : Nat} {b : Bool} {k : Nat} : ∀ {gs : List (List (List Nat × W))} {p : Nat}, (∀ g ∈ gs, ∀ en ∈ g, en.1.length = k) →
    ∀ i j : Nat, i < j → ∀ li lj, (tThreads lw b k p gs)[i]? = some li → (tThreads lw b k p gs)[j]? = some lj → ∀ a ∈ li, ∀ c ∈ lj, Commute stepT c a
  | [], p, _, i, j, _, li, lj, hi, _, _, _, _, _ => by simp [tThreads] at hi
  | g :: gs, p, h, i, j, hij, li, lj, hi, hj, a, ha, c, hc => by
    obtain ⟨j, rfl⟩ : ∃ k, j = k + 1 := ⟨j - 1, by omega⟩
    rw [tThreads, List.getElem?_cons_succ] at hj
    have hgs := fun g' hg' => h g' (List.mem_cons_of_mem _ hg')
    cases i with
    | zero =>
      rw [tThreads, List.getElem?_cons_zero] at hi
      injection hi with hi; subst hi
      obtain ⟨h1, h2⟩ := tThreads_pos hgs lj (List.mem_of_getElem? hj) c hc
      obtain ⟨h3, h4⟩ := tActsOf_pos (h g (by simp)) a ha
      refine tact_commute c a (fun x hx y hy => ?_) (fun x hx y hy => ?_)
      · have := h1 x hx; have := h3 y hy; omega
      · have := h2 x hx; have := h4 y hy; omega
    | succ i =>
      rw [tThreads, List.getElem?_cons_succ] at hi
      exact tThreads_commute hgs i j (by omega) li lj hi hj a ha c hc

theorem run_coordActs : ∀ (xs pre junk : List Nat) (w : List W), xs.length ≤ junk.length →
    runActs stepT (coordActs pre.length xs) { c := pre ++ junk, w := w } = .ok { c := pre ++ xs ++ junk.drop xs.length, w := w }
  | [], pre, junk, w, _ => by simp [coordActs, runActs]
  | x :: xs, pre, [], w, h => by simp at h
  | x :: xs, pre, j :: junk, w, h => by
    have hlt : pre.length < (pre ++ j :: junk).length := by simp
    have hset : (pre ++ j :: junk).set pre.length x = (pre ++ [x]) ++ junk := by simp
    simp only [coordActs, runActs, stepT, store, hlt, if_true, ok_bind, hset]
    have := run_coordActs xs (pre ++ [x]) junk w (by simpa using h)
    rw [List.length_append, List.length_singleton] at this
    rw [this]
    simp

theorem run_tActsOf {lw : Nat} {b : Bool} {k : Nat} : ∀ (es : List (List Nat × W)) (cp cj : List Nat) (wp wj : List W) (p : Nat),
    (∀ en ∈ es, en.1.length = k) → cp.length = p * k → (b = true → wp.length = p) → es.length * k ≤ cj.length → (b = true → es.length ≤ wj.length) →
    runActs stepT (tActsOf lw b k p es) { c := cp ++ cj, w := wp ++ wj } =
      .ok { c := cp ++ es.flatMap (fun en => en.1.map (· % 2 ^ lw)) ++ cj.drop (es.length * k)
            w := if b then wp ++ es.map (fun en => en.2) ++ wj.drop es.length else wp ++ wj }
  | [], cp, cj, wp, wj, p, _, _, _, _, _ => by cases b <;> simp [tActsOf, runActs]
  | en :: es, cp, cj, wp, wj, p, h, hc, hw, hcj, hwj => by
    have hlen := h en (by simp)
    have hes := fun en' hen' => h en' (List.mem_cons_of_mem _ hen')
    rw [List.length_cons, Nat.succ_mul] at hcj
    have h1 := run_coordActs (W := W) (en.1.map (· % 2 ^ lw)) cp cj (wp ++ wj) (by rw [List.length_map]; omega)
    rw [hc, List.length_map, hlen] at h1
    rw [tActsOf, runActs_append, tActs, runActs_append, h1, ok_bind]
    have hcp : (cp ++ en.1.map (· % 2 ^ lw)).length = (p + 1) * k := by rw [List.length_append, List.length_map, hc, hlen, Nat.succ_mul]
    have hcl : es.length * k ≤ (cj.drop k).length := by rw [List.length_drop]; omega
    have hcd : (cj.drop k).drop (es.length * k) = cj.drop ((es.length + 1) * k) := by rw [List.drop_drop]; congr 1; rw [Nat.succ_mul]; omega
    cases b with
    | false =>
      simp only [Bool.false_eq_true, if_false, runActs, ok_bind]
      have := run_tActsOf (b := false) (lw := lw) es (cp ++ en.1.map (· % 2 ^ lw)) (cj.drop k) wp wj (p + 1) hes hcp (by simp) hcl (by simp)
      rw [this]
      simp only [Bool.false_eq_true, if_false, hcd, List.flatMap_cons, List.append_assoc, List.length_cons]
    | true =>
      have hwj := hwj rfl
      have hw := hw rfl
      cases wj with
      | nil => simp at hwj
      | cons j wj =>
        have hset : (wp ++ j :: wj).set p en.2 = (wp ++ [en.2]) ++ wj := by rw [← hw]; simp
        have hlt : p < (wp ++ j :: wj).length := by rw [← hw]; simp
        simp only [if_true, runActs, stepT, store, hlt, ok_bind, hset]
        have := run_tActsOf (b := true) (lw := lw) es (cp ++ en.1.map (· % 2 ^ lw)) (cj.drop k) (wp ++ [en.2]) wj (p + 1) hes hcp
          (by intro _; rw [List.length_append, hw]; rfl) hcl (by intro _; simpa using hwj)
        rw [this]
        simp only [if_true, hcd, List.flatMap_cons, List.append_assoc, List.length_cons, List.map_cons, List.drop_succ_cons, List.singleton_append, List.cons_append, List.nil_append]

/-- Every execution of `Tensor::read_el_` on such a file produces exactly this tensor. -/
theorem readTensorEl_all {lw ow k : Nat} {ls : List (List Byte)} {tail : List Byte} {wk : WKind W} {ent : List Byte → Option (List Nat × W)} {T : Nat}
    (hT : 0 < T) (st : ElState μ e ls tail) (hls : ∀ l ∈ ls, TEntOk lw wk k ent l) (ho : tensorOrder μ ow wk.wgt (rd e (text ls ++ tail)) = .ok k)
    (hm : (ls.filterMap ent).length < 2 ^ ow) (hkm : k * (ls.filterMap ent).length < 2 ^ ow) :
    (readTensorEl μ lw ow wk T (rd e (text ls ++ tail))).All (fun t =>
      t = { c := (ls.filterMap ent).flatMap (fun en => en.1.map (· % 2 ^ lw)), w := if wk.wgt then (ls.filterMap ent).map (fun en => en.2) else [],
            order := k, m := (ls.filterMap ent).length }) := by
  obtain ⟨gs, hgs, hplan⟩ := tensorPlan_eq (ow := ow) hT st hls ho
  have hlen : ∀ en ∈ ls.filterMap ent, en.1.length = k := by
    intro en hen
    obtain ⟨l, hl, he⟩ := List.mem_filterMap.mp hen
    have := (hls l hl).2
    rw [he] at this
    exact this.2
  have hlen' : ∀ g ∈ gs, ∀ en ∈ g, en.1.length = k := by
    intro g hg en hen
    exact hlen en (by rw [← hgs]; exact List.mem_flatten.mpr ⟨g, hg, hen⟩)
  unfold readTensorEl
  refine R.All.bind (R.All.lift hplan rfl) (fun p hp => ?_)
  subst hp
  refine R.All.bind R.All.any (fun jc _ => R.All.bind R.All.any (fun jw _ => ?_))
  refine R.All.bind (P := fun mem => mem = { c := (ls.filterMap ent).flatMap (fun en => en.1.map (· % 2 ^ lw)), w := if wk.wgt then (ls.filterMap ent).map (fun en => en.2) else [] })
    (R.All.par (fun sched hs => ⟨_, ?_, rfl⟩)) (fun mem hmem => ?_)
  · simp only at hs ⊢
    rw [interleave_eq_flatten stepT hs (tThreads_commute hlen'), tThreads_flatten, hgs, Nat.mod_eq_of_lt hm, inOrd_lt hkm]
    have := run_tActsOf (lw := lw) (b := wk.wgt) (ls.filterMap ent) [] (alloc jc (k * (ls.filterMap ent).length)) [] (if wk.wgt then alloc jw (ls.filterMap ent).length else []) 0 hlen
      (by simp) (by simp) (by simp [alloc, Nat.mul_comm]) (by intro hb; simp [hb, alloc])
    rw [List.nil_append, List.nil_append] at this
    rw [this]
    congr 2
    · rw [List.nil_append, List.drop_of_length_le (by simp [alloc, Nat.mul_comm]), List.append_nil]
    · cases wk.wgt <;> simp [alloc]
  · subst hmem
    rw [Nat.mod_eq_of_lt hm]
    exact R.All.pure rfl

end Pigo
