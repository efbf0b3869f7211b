import Verif.Lemmas.WeightedCut

/-!
# What the loader stores out of any weighted text, without flags
-/

namespace Pigo

variable {W : Type} {μ : Mapping} {e : Nat}

/-- The only value stored to a position is there at the end. -/
theorem run_val : ∀ (acts : List (Act W)) (s s' : Mem W), runActs stepAct acts s = .ok s' → (∀ d c, Act.copyW d c ∉ acts) →
    (∀ i v, (Act.setX i v ∈ acts ∨ s.x[i]? = some v) → (∀ v', Act.setX i v' ∈ acts → v' = v) → s'.x[i]? = some v) ∧
    (∀ i v, (Act.setY i v ∈ acts ∨ s.y[i]? = some v) → (∀ v', Act.setY i v' ∈ acts → v' = v) → s'.y[i]? = some v) ∧
    (∀ i v, (Act.setW i v ∈ acts ∨ s.w[i]? = some v) → (∀ v', Act.setW i v' ∈ acts → v' = v) → s'.w[i]? = some v)
  | [], s, s', h, _ => by
    cases h
    exact ⟨fun i v h _ => h.resolve_left (by simp), fun i v h _ => h.resolve_left (by simp), fun i v h _ => h.resolve_left (by simp)⟩
  | a :: acts, s, s', h, hc => by
    have hc' : ∀ d c, Act.copyW d c ∉ acts := fun d c h => hc d c (List.mem_cons_of_mem _ h)
    rw [runActs] at h
    cases a with
    | setX j u =>
      by_cases hb : j < s.x.length
      · simp only [stepAct, store_ok hb, ok_bind] at h
        obtain ⟨g1, g2, g3⟩ := run_val acts _ s' h hc'
        refine ⟨fun i v h1 h2 => ?_, fun i v h1 h2 => ?_, fun i v h1 h2 => ?_⟩
        · refine g1 i v ?_ (fun v' hv => h2 v' (List.mem_cons_of_mem _ hv))
          by_cases hj : j = i
          · subst hj
            right
            rw [List.getElem?_set_self hb, h2 u (List.mem_cons_self ..)]
          · rcases h1 with h1 | h1
            · left
              rcases List.mem_cons.mp h1 with h1 | h1
              · injection h1 with h1 _; exact absurd h1.symm hj
              · exact h1
            · right; rw [List.getElem?_set_ne hj]; exact h1
        · refine g2 i v ?_ (fun v' hv => h2 v' (List.mem_cons_of_mem _ hv))
          rcases h1 with h1 | h1
          · left
            rcases List.mem_cons.mp h1 with h1 | h1
            · cases h1
            · exact h1
          · exact .inr h1
        · refine g3 i v ?_ (fun v' hv => h2 v' (List.mem_cons_of_mem _ hv))
          rcases h1 with h1 | h1
          · left
            rcases List.mem_cons.mp h1 with h1 | h1
            · cases h1
            · exact h1
          · exact .inr h1
      · simp only [stepAct, store_bad (Nat.le_of_not_lt hb)] at h; cases h
    | setY j u =>
      by_cases hb : j < s.y.length
      · simp only [stepAct, store_ok hb, ok_bind] at h
        obtain ⟨g1, g2, g3⟩ := run_val acts _ s' h hc'
        refine ⟨fun i v h1 h2 => ?_, fun i v h1 h2 => ?_, fun i v h1 h2 => ?_⟩
        · refine g1 i v ?_ (fun v' hv => h2 v' (List.mem_cons_of_mem _ hv))
          rcases h1 with h1 | h1
          · left
            rcases List.mem_cons.mp h1 with h1 | h1
            · cases h1
            · exact h1
          · exact .inr h1
        · refine g2 i v ?_ (fun v' hv => h2 v' (List.mem_cons_of_mem _ hv))
          by_cases hj : j = i
          · subst hj
            right
            rw [List.getElem?_set_self hb, h2 u (List.mem_cons_self ..)]
          · rcases h1 with h1 | h1
            · left
              rcases List.mem_cons.mp h1 with h1 | h1
              · injection h1 with h1 _; exact absurd h1.symm hj
              · exact h1
            · right; rw [List.getElem?_set_ne hj]; exact h1
        · refine g3 i v ?_ (fun v' hv => h2 v' (List.mem_cons_of_mem _ hv))
          rcases h1 with h1 | h1
          · left
            rcases List.mem_cons.mp h1 with h1 | h1
            · cases h1
            · exact h1
          · exact .inr h1
      · simp only [stepAct, store_bad (Nat.le_of_not_lt hb)] at h; cases h
    | setW j u =>
      by_cases hb : j < s.w.length
      · simp only [stepAct, store_ok hb, ok_bind] at h
        obtain ⟨g1, g2, g3⟩ := run_val acts _ s' h hc'
        refine ⟨fun i v h1 h2 => ?_, fun i v h1 h2 => ?_, fun i v h1 h2 => ?_⟩
        · refine g1 i v ?_ (fun v' hv => h2 v' (List.mem_cons_of_mem _ hv))
          rcases h1 with h1 | h1
          · left
            rcases List.mem_cons.mp h1 with h1 | h1
            · cases h1
            · exact h1
          · exact .inr h1
        · refine g2 i v ?_ (fun v' hv => h2 v' (List.mem_cons_of_mem _ hv))
          rcases h1 with h1 | h1
          · left
            rcases List.mem_cons.mp h1 with h1 | h1
            · cases h1
            · exact h1
          · exact .inr h1
        · refine g3 i v ?_ (fun v' hv => h2 v' (List.mem_cons_of_mem _ hv))
          by_cases hj : j = i
          · subst hj
            right
            rw [List.getElem?_set_self hb, h2 u (List.mem_cons_self ..)]
          · rcases h1 with h1 | h1
            · left
              rcases List.mem_cons.mp h1 with h1 | h1
              · injection h1 with h1 _; exact absurd h1.symm hj
              · exact h1
            · right; rw [List.getElem?_set_ne hj]; exact h1
      · simp only [stepAct, store_bad (Nat.le_of_not_lt hb)] at h; cases h
    | copyW d c => exact absurd (List.mem_cons_self ..) (hc d c)

/-- A position belongs to one thread. -/
theorem cStart_unique {s : List Byte} {T t t' j j' : Nat} (h : j < cPart s T t) (h' : j' < cPart s T t') (he : cStart s T t + j = cStart s T t' + j') :
    t = t' ∧ j = j' := by
  have h1 := cStart_succ s T t
  have h2 := cStart_succ s T t'
  rcases Nat.lt_trichotomy t t' with hlt | heq | hlt
  · have := cStart_mono s T (show t + 1 ≤ t' by omega); omega
  · subst heq; exact ⟨rfl, by omega⟩
  · have := cStart_mono s T (show t' + 1 ≤ t by omega); omega

/-- No thread stores the weight of a torn entry behind its own positions. -/
def TornIn (lw : Nat) (wv : List Byte → W) (ws : List Byte → List Byte) (s : List Byte) (T : Nat) : Prop :=
  ∀ tid < T, (wPart lw wv ws s T tid).2 = none ∨ (wPart lw wv ws s T tid).1.length < cPart s T tid

/-- Every execution stores the complete entries of every thread; the labels behind them are whatever the memory held. -/
theorem readEl_stored {s : List Byte} (v : View μ e s) (he : EndB μ e) {lw ow T : Nat} {cfg : Cfg} (hp : cfg.plain = true) {wk : WKind W}
    {wv : List Byte → W} {ws : List Byte → List Byte} (hw : AnyW μ wk wv ws) (hT : 0 < T) (hfit : s.length < 2 ^ ow) (ht : TornIn lw wv ws s T) :
    (∀ out, ReadEl μ lw ow cfg wk T (rd e s) out → ∃ c, out = .ok c ∧ c.m = cStart s T T ∧ c.x.length = c.m ∧ c.y.length = c.m ∧ c.w.length = c.m ∧
      c.nrows = (((List.range T).map (wState lw wv ws s T)).foldl (fun a st => max a st.mr) 0 + 1) % 2 ^ lw ∧
      c.ncols = (((List.range T).map (wState lw wv ws s T)).foldl (fun a st => max a st.mc) 0 + 1) % 2 ^ lw ∧ c.n = max c.nrows c.ncols ∧
      ∀ tid < T, ∀ j x y w, (wPart lw wv ws s T tid).1[j]? = some (x, y, w) →
        c.x[cStart s T tid + j]? = some x ∧ c.y[cStart s T tid + j]? = some y ∧ c.w[cStart s T tid + j]? = some w) ∧
    ∀ jk : Junk W, ∃ c, ReadEl μ lw ow cfg wk T (rd e s) (.ok c) ∧ ∀ tid < T, ∀ j, (wPart lw wv ws s T tid).1.length ≤ j → j < cPart s T tid →
      c.x[cStart s T tid + j]? = some (jk.x (cStart s T tid + j)) ∧ c.y[cStart s T tid + j]? = some (jk.y (cStart s T tid + j)) := by
  have hno : ∀ tid < T, ¬ TornOut lw wv ws s T tid := by
    rintro tid h ⟨h1, h2⟩
    rcases ht tid h with h3 | h3
    · exact h1 h3
    · have := cStart_mono s T (show tid + 1 ≤ T by omega)
      rw [cStart_succ] at this
      omega
  have hok := (readEl_w v he (lw := lw) hp hw hT hfit).2 hno
  have hplan := readElPlan_w v he (lw := lw) (ow := ow) hp hw hT
  have hm : cStart s T T % 2 ^ ow = cStart s T T := Nat.mod_eq_of_lt (by have := cStart_le s T T; omega)
  -- what the stores are
  have hacts : ∀ {sched : List (Act W)}, Interleave ((List.range T).map (fun tid => (wState lw wv ws s T tid).acts)) sched → ∀ a ∈ sched,
      (∃ tid < T, ∃ j x y w, (wPart lw wv ws s T tid).1[j]? = some (x, y, w) ∧ j < cPart s T tid ∧
        (a = .setW (cStart s T tid + j) w ∨ a = .setX (cStart s T tid + j) x ∨ a = .setY (cStart s T tid + j) y)) ∨
      ∃ tid < T, ∃ w, a = .setW (cStart s T tid + (wPart lw wv ws s T tid).1.length) w ∧ (wPart lw wv ws s T tid).1.length < cPart s T tid := by
    intro sched hs a ha
    obtain ⟨l, hl, hal⟩ := hs.mem a ha
    obtain ⟨tid, htid, rfl⟩ := List.mem_map.mp hl
    have htid := List.mem_range.mp htid
    rcases List.mem_append.mp hal with hal | hal
    · obtain ⟨j, x, y, w, h1, h2⟩ := mem_entActs.mp hal
      have := (List.getElem?_eq_some_iff.mp h1).1
      have := wPart_le (lw := lw) (wv := wv) hw.suffix s T tid
      exact .inl ⟨tid, htid, j, x, y, w, h1, by omega, h2⟩
    · cases ht' : (wPart lw wv ws s T tid).2 with
      | none => rw [ht'] at hal; simp [tornAct] at hal
      | some v =>
        rw [ht'] at hal
        simp only [tornAct, List.mem_singleton] at hal
        refine .inr ⟨tid, htid, v, hal, (ht tid htid).resolve_left ?_⟩
        rw [ht']; simp
  have hin : ∀ {sched : List (Act W)}, Interleave ((List.range T).map (fun tid => (wState lw wv ws s T tid).acts)) sched → ∀ tid < T, ∀ a ∈ entActs (cStart s T tid) (wPart lw wv ws s T tid).1,
      a ∈ sched := by
    intro sched hs tid htid a ha
    rw [hs.perm.mem_iff, List.mem_flatten]
    exact ⟨_, List.mem_map.mpr ⟨tid, List.mem_range.mpr htid, rfl⟩, List.mem_append_left _ ha⟩
  refine ⟨fun out ho => ?_, fun jk => ?_⟩
  · obtain ⟨c, hc, a1, a2, a3, a4⟩ := hok out ho
    unfold ReadEl at ho
    rw [hplan] at ho
    obtain ⟨jk, sched, hs, he'⟩ := ho
    rw [hc] at he'
    unfold execPlan at he'
    simp only [hm] at he'
    cases hrun : runActs stepAct sched (allocCoo wk.wgt jk (cStart s T T)) with
    | error f => rw [hrun] at he'; cases he'
    | ok s' =>
      rw [hrun] at he'
      simp only [ok_bind] at he'
      injection he' with he'
      have hncopy : ∀ d c, Act.copyW d c ∉ sched := by
        intro d c h
        rcases hacts hs _ h with ⟨_, _, _, _, _, _, _, _, h | h | h⟩ | ⟨_, _, _, h, _⟩ <;> cases h
      obtain ⟨g1, g2, g3⟩ := run_val sched _ s' hrun hncopy
      refine ⟨c, hc, a1, a2, a3, a4, by rw [he'], by rw [he'], by rw [he']; simp only [Nat.max_def]; split <;> split <;> omega, fun tid htid j x y w hj => ?_⟩
      have hlt : j < cPart s T tid := by
        have := (List.getElem?_eq_some_iff.mp hj).1
        have := wPart_le (lw := lw) (wv := wv) hw.suffix s T tid
        omega
      have hlj := (List.getElem?_eq_some_iff.mp hj).1
      have hx : c.x = s'.x := by rw [he']
      have hy : c.y = s'.y := by rw [he']
      have hww : c.w = s'.w := by rw [he']
      rw [hx, hy, hww]
      refine ⟨g1 _ _ (.inl (hin hs tid htid _ (mem_entActs.mpr ⟨j, x, y, w, hj, .inr (.inl rfl)⟩))) ?_,
        g2 _ _ (.inl (hin hs tid htid _ (mem_entActs.mpr ⟨j, x, y, w, hj, .inr (.inr rfl)⟩))) ?_,
        g3 _ _ (.inl (hin hs tid htid _ (mem_entActs.mpr ⟨j, x, y, w, hj, .inl rfl⟩))) ?_⟩
      · intro v' hv'
        rcases hacts hs _ hv' with ⟨t', ht', j', x', y', w', h1, h2, h | h | h⟩ | ⟨_, _, _, h, _⟩
        · cases h
        · injection h with h h3
          obtain ⟨rfl, rfl⟩ := cStart_unique hlt h2 h
          rw [hj] at h1; injection h1 with h1; injection h1 with h1 _; rw [h3, h1]
        · cases h
        · cases h
      · intro v' hv'
        rcases hacts hs _ hv' with ⟨t', ht', j', x', y', w', h1, h2, h | h | h⟩ | ⟨_, _, _, h, _⟩
        · cases h
        · cases h
        · injection h with h h3
          obtain ⟨rfl, rfl⟩ := cStart_unique hlt h2 h
          rw [hj] at h1; injection h1 with h1; injection h1 with _ h1; injection h1 with h1 _; rw [h3, h1]
        · cases h
      · intro v' hv'
        rcases hacts hs _ hv' with ⟨t', ht', j', x', y', w', h1, h2, h | h | h⟩ | ⟨t', ht', w', h, h2⟩
        · injection h with h h3
          obtain ⟨rfl, rfl⟩ := cStart_unique hlt h2 h
          rw [hj] at h1; injection h1 with h1; injection h1 with _ h1; injection h1 with _ h1; rw [h3, h1]
        · cases h
        · cases h
        · injection h with h h3
          obtain ⟨rfl, rfl⟩ := cStart_unique hlt h2 h
          omega
  · have hrun := readEl_intro hplan jk
    obtain ⟨c, hc, a1, _⟩ := hok _ hrun
    rw [hc] at hrun
    refine ⟨c, hrun, fun tid htid j hj1 hj2 => ?_⟩
    unfold execPlan at hc
    simp only [hm] at hc
    cases hs : runActs stepAct ((List.range T).map (fun tid => (wState lw wv ws s T tid).acts)).flatten (allocCoo wk.wgt jk (cStart s T T)) with
    | error f => rw [hs] at hc; cases hc
    | ok s' =>
      rw [hs] at hc
      cases hc
      have hkeep := runW_keep (i := cStart s T tid + j) _ _ _ hs (fun v hv => by
          rcases hacts (interleave_flatten _) _ hv with ⟨t', ht', j', x', y', w', h1, h2, h | h | h⟩ | ⟨t', ht', w', h, h2⟩
          · cases h
          · injection h with h h3
            obtain ⟨rfl, rfl⟩ := cStart_unique hj2 h2 h
            have := (List.getElem?_eq_some_iff.mp h1).1
            omega
          · cases h
          · cases h) (fun v hv => by
          rcases hacts (interleave_flatten _) _ hv with ⟨t', ht', j', x', y', w', h1, h2, h | h | h⟩ | ⟨t', ht', w', h, h2⟩
          · cases h
          · cases h
          · injection h with h h3
            obtain ⟨rfl, rfl⟩ := cStart_unique hj2 h2 h
            have := (List.getElem?_eq_some_iff.mp h1).1
            omega
          · cases h)
      have hlt : cStart s T tid + j < cStart s T T := by
        have := cStart_mono s T (show tid + 1 ≤ T by omega)
        rw [cStart_succ] at this
        omega
      show s'.x[_]? = _ ∧ s'.y[_]? = _
      rw [hkeep.1, hkeep.2]
      simp [allocCoo, alloc, hlt]

end Pigo
