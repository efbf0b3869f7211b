import Verif.Lemmas.WeightedLoop

/-!
# Executions of the loader over weighted text, without flags
-/

namespace Pigo

variable {W : Type} {μ : Mapping} {e : Nat}

/-- Stores of labels inside of arrays of `m` elements; stores of weights anywhere. -/
def labIn (m : Nat) : Act W → Prop
  | .setX i _ => i < m
  | .setY i _ => i < m
  | .setW _ _ => True
  | .copyW .. => False

theorem mem_entActs {b : Nat} {es : List (Nat × Nat × W)} {a : Act W} : a ∈ entActs b es ↔
    ∃ j x y w, es[j]? = some (x, y, w) ∧ (a = .setW (b + j) w ∨ a = .setX (b + j) x ∨ a = .setY (b + j) y) := by
  induction es generalizing b with
  | nil => simp [entActs]
  | cons t es ih =>
    obtain ⟨x, y, w⟩ := t
    simp only [entActs, List.mem_cons, ih]
    constructor
    · rintro (rfl | rfl | rfl | ⟨j, x, y, w, h, h'⟩)
      · exact ⟨0, x, y, w, rfl, .inl rfl⟩
      · exact ⟨0, x, y, w, rfl, .inr (.inl rfl)⟩
      · exact ⟨0, x, y, w, rfl, .inr (.inr rfl)⟩
      · refine ⟨j + 1, x, y, w, h, ?_⟩
        rw [show b + (j + 1) = b + 1 + j by omega]; exact h'
    · rintro ⟨j, x', y', w', h, h'⟩
      cases j with
      | zero =>
        cases h
        rcases h' with rfl | rfl | rfl
        · exact .inl rfl
        · exact .inr (.inl rfl)
        · exact .inr (.inr (.inl rfl))
      | succ j =>
        refine .inr (.inr (.inr ⟨j, x', y', w', h, ?_⟩))
        rw [show b + 1 + j = b + (j + 1) by omega]; exact h'

theorem runW_oob {m : Nat} : ∀ (acts : List (Act W)) (s : Mem W), s.x.length = m → s.y.length = m → s.w.length = m → (∀ a ∈ acts, labIn m a) →
    (∃ i w, Act.setW i w ∈ acts ∧ m ≤ i) → runActs stepAct acts s = .error .oob
  | [], _, _, _, _, _, ⟨_, _, h, _⟩ => by cases h
  | a :: acts, s, hx, hy, hw, hin, ⟨i, w, hm, hi⟩ => by
    have ha := hin a (List.mem_cons_self ..)
    have hin' : ∀ a ∈ acts, labIn m a := fun b hb => hin b (List.mem_cons_of_mem _ hb)
    rw [runActs]
    cases a with
    | setX j v =>
      simp only [labIn] at ha
      simp only [stepAct, store_ok (show j < s.x.length by omega), ok_bind]
      refine runW_oob acts _ (by simpa using hx) hy hw hin' ⟨i, w, ?_, hi⟩
      rcases List.mem_cons.mp hm with h | h
      · cases h
      · exact h
    | setY j v =>
      simp only [labIn] at ha
      simp only [stepAct, store_ok (show j < s.y.length by omega), ok_bind]
      refine runW_oob acts _ hx (by simpa using hy) hw hin' ⟨i, w, ?_, hi⟩
      rcases List.mem_cons.mp hm with h | h
      · cases h
      · exact h
    | setW j v =>
      by_cases hj : j < m
      · simp only [stepAct, store_ok (show j < s.w.length by omega), ok_bind]
        refine runW_oob acts _ hx hy (by simpa using hw) hin' ⟨i, w, ?_, hi⟩
        rcases List.mem_cons.mp hm with h | h
        · injection h with h _; omega
        · exact h
      · simp only [stepAct, store_bad (show s.w.length ≤ j by omega)]; rfl
    | copyW d c => exact absurd ha (by simp [labIn])

theorem runW_in {m : Nat} : ∀ (acts : List (Act W)) (s : Mem W), s.x.length = m → s.y.length = m → s.w.length = m → (∀ a ∈ acts, labIn m a) →
    (∀ i w, Act.setW i w ∈ acts → i < m) → ∃ s', runActs stepAct acts s = .ok s' ∧ s'.x.length = m ∧ s'.y.length = m ∧ s'.w.length = m
  | [], s, hx, hy, hw, _, _ => ⟨s, rfl, hx, hy, hw⟩
  | a :: acts, s, hx, hy, hw, hin, hwi => by
    have ha := hin a (List.mem_cons_self ..)
    have hin' : ∀ a ∈ acts, labIn m a := fun b hb => hin b (List.mem_cons_of_mem _ hb)
    have hwi' : ∀ i w, Act.setW i w ∈ acts → i < m := fun i w h => hwi i w (List.mem_cons_of_mem _ h)
    rw [runActs]
    cases a with
    | setX j v =>
      simp only [labIn] at ha
      simp only [stepAct, store_ok (show j < s.x.length by omega), ok_bind]
      exact runW_in acts _ (by simpa using hx) hy hw hin' hwi'
    | setY j v =>
      simp only [labIn] at ha
      simp only [stepAct, store_ok (show j < s.y.length by omega), ok_bind]
      exact runW_in acts _ hx (by simpa using hy) hw hin' hwi'
    | setW j v =>
      have := hwi j v (List.mem_cons_self ..)
      simp only [stepAct, store_ok (show j < s.w.length by omega), ok_bind]
      exact runW_in acts _ hx hy (by simpa using hw) hin' hwi'
    | copyW d c => exact absurd ha (by simp [labIn])

/-- Thread `tid` ends within an entry whose weight belongs behind the last entry of the file. -/
def TornOut (lw : Nat) (wv : List Byte → W) (ws : List Byte → List Byte) (s : List Byte) (T tid : Nat) : Prop :=
  (wPart lw wv ws s T tid).2 ≠ none ∧ cStart s T tid + (wPart lw wv ws s T tid).1.length = cStart s T T

theorem wPart_le {lw : Nat} {wv : List Byte → W} {ws : List Byte → List Byte} (hws : ∀ s, ws s <:+ s) (s : List Byte) (T tid : Nat) :
    (wPart lw wv ws s T tid).1.length ≤ cPart s T tid := wScan_le lw hws _ _ (atNum_regL s T tid) (Nat.le_refl _)

theorem acts_of {lw : Nat} {wv : List Byte → W} {ws : List Byte → List Byte} (hws : ∀ s, ws s <:+ s) {s : List Byte} {T tid : Nat} (ht : tid < T)
    {a : Act W} (ha : a ∈ (wState lw wv ws s T tid).acts) :
    labIn (cStart s T T) a ∧ ∀ i w, a = .setW i w → i < cStart s T T ∨ i = cStart s T T ∧ TornOut lw wv ws s T tid := by
  have h1 := wPart_le (lw := lw) (wv := wv) hws s T tid
  have h2 := cStart_mono s T (show tid + 1 ≤ T by omega)
  rw [cStart_succ] at h2
  rcases List.mem_append.mp ha with ha | ha
  · obtain ⟨j, x, y, w, hj, h⟩ := mem_entActs.mp ha
    have hj := (List.getElem?_eq_some_iff.mp hj).1
    rcases h with rfl | rfl | rfl
    · exact ⟨trivial, fun i w h => by injection h with h _; left; omega⟩
    · exact ⟨show _ < _ by omega, fun i w h => by cases h⟩
    · exact ⟨show _ < _ by omega, fun i w h => by cases h⟩
  · cases ht' : (wPart lw wv ws s T tid).2 with
    | none => rw [ht'] at ha; simp [tornAct] at ha
    | some v =>
      rw [ht'] at ha
      simp only [tornAct, List.mem_singleton] at ha
      subst ha
      refine ⟨trivial, fun i w h => ?_⟩
      injection h with h _
      subst h
      by_cases h3 : cStart s T tid + (wPart lw wv ws s T tid).1.length = cStart s T T
      · exact .inr ⟨h3, by rw [ht']; simp, h3⟩
      · left; omega

/-- Every execution of `COO::read_el_` with weights and without flags on any text. -/
theorem readEl_w {s : List Byte} (v : View μ e s) (he : EndB μ e) {lw ow T : Nat} {cfg : Cfg} (hp : cfg.plain = true) {wk : WKind W}
    {wv : List Byte → W} {ws : List Byte → List Byte} (hw : AnyW μ wk wv ws) (hT : 0 < T) (hfit : s.length < 2 ^ ow) :
    ((∃ tid < T, TornOut lw wv ws s T tid) → ∀ out, ReadEl μ lw ow cfg wk T (rd e s) out → out = .error .oob) ∧
    ((∀ tid < T, ¬ TornOut lw wv ws s T tid) → ∀ out, ReadEl μ lw ow cfg wk T (rd e s) out → ∃ c, out = .ok c ∧
      c.m = cStart s T T ∧ c.x.length = c.m ∧ c.y.length = c.m ∧ c.w.length = c.m) := by
  have hm : cStart s T T % 2 ^ ow = cStart s T T := Nat.mod_eq_of_lt (by have := cStart_le s T T; omega)
  have hlen : ∀ j : Junk W, (allocCoo true j (cStart s T T)).x.length = cStart s T T ∧ (allocCoo true j (cStart s T T)).y.length = cStart s T T ∧
      (allocCoo true j (cStart s T T)).w.length = cStart s T T := fun j => by simp [allocCoo, alloc]
  have hacts : ∀ {sched : List (Act W)}, Interleave ((List.range T).map (fun tid => (wState lw wv ws s T tid).acts)) sched → ∀ a ∈ sched,
      ∃ tid < T, a ∈ (wState lw wv ws s T tid).acts := by
    intro sched hs a ha
    obtain ⟨l, hl, hal⟩ := hs.mem a ha
    obtain ⟨tid, ht, rfl⟩ := List.mem_map.mp hl
    exact ⟨tid, List.mem_range.mp ht, hal⟩
  have hlab : ∀ {sched : List (Act W)}, Interleave ((List.range T).map (fun tid => (wState lw wv ws s T tid).acts)) sched → ∀ a ∈ sched, labIn (cStart s T T) a := by
    intro sched hs a ha
    obtain ⟨tid, ht, hal⟩ := hacts hs a ha
    exact (acts_of hw.suffix ht hal).1
  constructor
  · rintro ⟨tid, ht, htorn, hend⟩ out h
    unfold ReadEl at h
    rw [readElPlan_w v he hp hw hT] at h
    obtain ⟨j, sched, hs, rfl⟩ := h
    unfold execPlan
    simp only [hm, hw.wgt]
    obtain ⟨l1, l2, l3⟩ := hlen j
    rw [runW_oob sched _ l1 l2 l3 (hlab hs)]
    · rfl
    · obtain ⟨w, hw'⟩ := Option.ne_none_iff_exists'.mp htorn
      refine ⟨cStart s T tid + (wPart lw wv ws s T tid).1.length, w, ?_, by omega⟩
      rw [hs.perm.mem_iff, List.mem_flatten]
      refine ⟨_, List.mem_map.mpr ⟨tid, List.mem_range.mpr ht, rfl⟩, ?_⟩
      exact List.mem_append_right _ (by rw [hw']; simp [tornAct])
  · intro hno out h
    unfold ReadEl at h
    rw [readElPlan_w v he hp hw hT] at h
    obtain ⟨j, sched, hs, rfl⟩ := h
    obtain ⟨l1, l2, l3⟩ := hlen j
    obtain ⟨s', h1, h2, h3, h4⟩ := runW_in sched (allocCoo true j (cStart s T T)) l1 l2 l3 (hlab hs) (fun i w ha => by
      obtain ⟨tid, ht, hal⟩ := hacts hs _ ha
      rcases (acts_of hw.suffix ht hal).2 i w rfl with h | ⟨_, h⟩
      · exact h
      · exact absurd h (hno tid ht))
    unfold execPlan
    simp only [hm, hw.wgt]
    rw [h1]
    exact ⟨_, rfl, rfl, h2, h3, h4⟩

end Pigo
