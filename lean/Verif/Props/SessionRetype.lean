import Verif.Lemmas.SessionRetype
import Verif.Props.SessionSort
import Mathlib.Tactic.Tauto

/-!
# C101: programs that change the template types

As `C101_unweighted` … `C101_float`, for programs in parts with other label, ordinal, weight and storage types in every part.
-/

namespace Pigo.Session

/-- In every part the weights are of one of the types of `Weights`; `ok` are the weights at the start, which the first type can hold, and
each change of types turns them into weights for the next part. -/
inductive LWeights : {W V : Type} → {E : Types W} → {E' : Types V} → {k k' : Kind} → Long E E' k k' → (W → Prop) → Prop
  | last {W : Type} {E : Types W} {k k' : Kind} {p : Prog k k'} {entry : List Byte → Option (Nat × Nat × W)} {can ok : W → Prop}
      (h : Weights E entry can) (hs : ∀ w, ok w → can w) : LWeights (.last (E := E) p) ok
  | change {W U V : Type} {E : Types W} {E1 : Types U} {E' : Types V} {k k1 k2 k' : Kind} {p : Prog k k1} {T : Nat} {op : Conv k1 k2}
      {conv : W → U} {rest : Long E1 E' k2 k'} {entry : List Byte → Option (Nat × Nat × W)} {can ok : W → Prop} {ok1 : U → Prop}
      (h : Weights E entry can) (hs : ∀ w, ok w → can w) (hc : ∀ w, ok w → ok1 (conv w)) (hr : LWeights rest ok1) : LWeights (.change (E := E) p T op conv rest) ok

theorem Weights.inhabited {W : Type} {E : Types W} {entry : List Byte → Option (Nat × Nat × W)} {ok : W → Prop} (h : Weights E entry ok) :
    Nonempty W := by
  cases h with
  | none => exact ⟨()⟩
  | unsigned => exact ⟨(0 : Nat)⟩
  | signed => exact ⟨(0 : Int)⟩
  | float _ ops => exact ⟨ops.zero⟩

theorem LWeights.inhabited {W V : Type} {E : Types W} {E' : Types V} {k k' : Kind} {p : Long E E' k k'} {ok : W → Prop} (h : LWeights p ok) :
    Nonempty W := by
  cases h with
  | last h _ => exact h.inhabited
  | change h _ _ _ => exact h.inhabited

theorem part_types {W : Type} {E : Types W} {entry : List Byte → Option (Nat × Nat × W)} {ok : W → Prop} (h : Weights E entry ok)
    {k k' : Kind} {p : Prog k k'} {N m : Nat} (hp : Spec.Part E p N m) : TypesOk E N ok :=
  ⟨hp.lb, hp.ob, hp.labels, h.cw.1, h.cw.2, hp.wlt⟩

theorem part_run {W : Type} {E : Types W} {entry : List Byte → Option (Nat × Nat × W)} {can ok : W → Prop} (h : Weights E entry can)
    (hsub : ∀ w, ok w → can w) {k k' : Kind} {p : Prog k k'} {N m : Nat} (hp : Spec.Part E p N m) {o : Obj W k} {s : Net W} (hi : Spec.Is E.wk.wgt k o s) (hs : Within N ok s)
    (hm : s.es.length ≤ m) (hw : Spec.Writes p → s.es ≠ []) :
    (p.run E o).All (fun o' => ∃ s', Spec.Does E.wlt p s s' ∧ Spec.Is E.wk.wgt k' o' s') := by
  obtain ⟨d⟩ := h.inhabited
  haveI : Inhabited W := ⟨d⟩
  exact run_all (part_types h hp) p hi ⟨hs.n, hs.ends, fun e he w hw => hsub w (hs.w e he w hw)⟩ (Nat.lt_of_le_of_lt (peak_mono p hm) hp.ordinals) hp.fine (fun g => ⟨h.text, hw g⟩) hp.stor

theorem reweigh_within {W V : Type} {N : Nat} {ok : W → Prop} {ok' : V → Prop} {wgt : Bool} {conv : W → V} (hc : ∀ w, ok w → ok' (conv w)) {s : Net W}
    (h : Within N ok s) : Within N ok' (Spec.reweigh wgt conv s) := by
  refine ⟨h.n, ?_, ?_⟩
  · intro e he
    obtain ⟨e', he', rfl⟩ := List.mem_map.mp he
    exact h.ends e' he'
  · intro e he w hw
    obtain ⟨e', he', rfl⟩ := List.mem_map.mp he
    dsimp only at hw
    split at hw
    · obtain ⟨w', hw', rfl⟩ := Option.map_eq_some_iff.mp hw
      exact hc _ (h.w e' he' _ hw')
    · cases hw

theorem long_all : ∀ {W V : Type} {E : Types W} {E' : Types V} {k k' : Kind} (p : Long E E' k k') {ok : W → Prop} {N m : Nat}, LWeights p ok →
    Spec.Parts p N m → ∀ {o : Obj W k} {s : Net W}, Spec.Is E.wk.wgt k o s → Within N ok s → s.es.length ≤ m → (Spec.LWrites p → s.es ≠ []) →
    (p.run o).All (fun o' => ∃ s', Spec.LDoes p s s' ∧ Spec.Is E'.wk.wgt k' o' s')
  | _, _, E, _, _, _, .last p, ok, N, m, hW, hp, o, s, hi, hs, hm, hw => by
    cases hW with
    | last h hsub => exact part_run h hsub hp hi hs hm hw
  | W, V, E, E', k, k', .change (U := U) (E1 := E1) (k1 := k1) (k2 := k2) p T op conv rest, ok, N, m, hW, hp, o, s, hi, hs, hm, hw => by
    cases hW with
    | change h hsub hc hr =>
      obtain ⟨hp, hT, hal, hmm, hrest⟩ := hp
      obtain ⟨d⟩ := h.inhabited
      haveI : Inhabited W := ⟨d⟩
      obtain ⟨d'⟩ := hr.inhabited
      haveI : Inhabited U := ⟨d'⟩
      refine R.All.bind (part_run h hsub hp hi hs hm (fun g => hw (.inl g))) ?_
      rintro o1 ⟨s1, hd, hi1⟩
      obtain ⟨a1, a2, a3⟩ := does_cases hd hs (fun g => hw (.inl g))
      have a2 := Nat.le_trans a2 (peak_mono p hm)
      have hlab : s1.n + 1 < 2 ^ (8 * E.lb) := by
        have := hp.labels
        have := a1.n
        omega
      have hlab' : s1.n + 1 < 2 ^ (8 * E1.lb) := by
        have h1 : N + 1 < 2 ^ (8 * E1.lb) := by
          cases rest with
          | last p => exact hrest.labels
          | change p => exact hrest.1.labels
        have := a1.n
        omega
      have hm1 : Spec.growth op * s1.es.length ≤ Spec.growth op * Spec.peak p m := Nat.mul_le_mul_left _ a2
      refine R.All.bind (conv_all (conv := conv) hp.wlt hT op hi1 a1.ends hlab hlab' (Nat.lt_of_le_of_lt hm1 hmm) hal) ?_
      rintro o2 ⟨s2, hst, hi2⟩
      have hnw : WritesOp op.same → s1.es ≠ [] := by cases op <;> exact fun g => g.elim
      obtain ⟨b1, b2, b3⟩ := step_cases hst a1 hnw
      rw [growth_factor] at b2
      have hlen : (Spec.reweigh E1.wk.wgt conv s2).es.length = s2.es.length := List.length_map _
      refine (long_all rest hr hrest hi2 (reweigh_within hc b1) (by rw [hlen]; exact Nat.le_trans b2 hm1) (fun g h0 => ?_)).mono ?_
      · rw [h0] at hlen
        exact b3 (a3 (hw (.inr g))) (List.length_eq_zero_iff.mp hlen.symm)
      · rintro o' ⟨s', hd', hi'⟩
        exact ⟨s', ⟨s1, s2, hd, hst, hd'⟩, hi'⟩

/-- **C101** for programs that change the types: every program in parts, of any length, where every part has its own label, ordinal,
weight and storage types, any number of threads for each operation and any schedule: every outcome is an object, and it holds the graph
that the operations make of the graph at the start, with the weights converted at every change of types. -/
theorem C101_retyped {W V : Type} {E : Types W} {E' : Types V} {k k' : Kind} (p : Long E E' k k') (ok : W → Prop) (hW : LWeights p ok)
    (o : Obj W k) (s : Net W) (h : Spec.Is E.wk.wgt k o s) (hs : Spec.Start p ok s) (out : M (Obj V k')) (ho : (p.run o).Out out) :
    ∃ o' s', out = .ok o' ∧ Spec.LDoes p s s' ∧ Spec.Is E'.wk.wgt k' o' s' := by
  obtain ⟨o', rfl, s', h1, h2⟩ := long_all p hW hs.parts h ⟨Nat.le_refl _, hs.ends, hs.weights⟩ (Nat.le_refl _) hs.edges out ho
  exact ⟨o', s', rfl, h1, h2⟩

/-! ## executions exist -/

theorem conv_any {W V : Type} [Nonempty W] [Nonempty V] {E : Types W} (hw : Pigo.Spec.StrictWeak E.wlt) (E' : Types V) (conv : W → V) {T : Nat} (hT : 0 < T)
    {k k' : Kind} (op : Conv k k') (o : Obj W k) : (op.run E E' conv T o).Any := by
  cases op with
  | toCsr => exact convertCooTo_any hT _ _ _
  | toGraph =>
    exact R.Any.bind (copyCoo_any hT _ _) (fun _ => R.Any.bind (convertCooTo_any hT _ _ _) (fun _ => R.Any.bind (convertCooTo_any hT _ _ _)
      (fun _ => R.Any.pure _)))
  | toMatrix =>
    exact R.Any.bind (copyCoo_any hT _ _) (fun _ => R.Any.bind (convertCooTo_any hT _ _ _) (fun _ => R.Any.bind (convertCooTo_any hT _ _ _)
      (fun _ => R.Any.pure _)))
  | toCoo f => exact convertCsrTo_any hT _ _ _ _ _
  | withoutDups => exact R.Any.bind (withoutDupsTo_any hT _ _ hw _ _) (fun _ => R.Any.pure _)

/-- C101: the program has an execution. -/
theorem C101_retyped_runs : ∀ {W V : Type} {E : Types W} {E' : Types V} {k k' : Kind} (p : Long E E' k k') {ok : W → Prop} {N m : Nat}, LWeights p ok →
    Spec.Parts p N m → ∀ (o : Obj W k), ∃ out, (p.run o).Out out
  | _, _, E, _, _, _, .last p, ok, N, m, hW, hp, o => by
    cases hW with
    | last h _ =>
      obtain ⟨d⟩ := h.inhabited
      haveI : Inhabited _ := ⟨d⟩
      exact run_any hp.wlt p o hp.fine
  | W, V, E, E', k, k', .change (U := U) (E1 := E1) p T op conv rest, ok, N, m, hW, hp, o => by
    cases hW with
    | change h hsub hc hr =>
      obtain ⟨hp, hT, _, _, hrest⟩ := hp
      obtain ⟨d⟩ := h.inhabited
      haveI : Inhabited W := ⟨d⟩
      haveI : Nonempty U := hr.inhabited
      exact R.Any.bind (run_any hp.wlt p o hp.fine) (fun o1 => R.Any.bind (conv_any hp.wlt E1 conv hT op o1)
        (fun o2 => C101_retyped_runs rest hr hrest o2))

/-! ## a program in three parts -/

/-- One-byte labels, two-byte ordinals, weights of type `int8_t`. -/
def exTypesByte : Types Int :=
  { lb := 1, ob := 2, wk := wSint 8, cw := codecInt 1 (by omega), stor := .pointer, wt := wtInt 8, wlt := fun a b => a < b }

/-- The CSR of a COO with `int64_t` weights; its entries without duplicates as a CSR with one-byte labels and `int8_t` weights, both
directions of its edges, written as text and loaded as a CSR; its entries without duplicates and without weights as a CSR with four-byte
labels, saved and loaded as a Matrix. -/
def exLong : Long exTypes exTypes0 .coo .matrix :=
  .change (E1 := exTypesByte) (.step 3 .toCsr .done) 4 .withoutDups (fun w : Int => w.bmod 256)
    (.change (E1 := exTypes0) (.step 2 (.toCoo .symmetric) (.step 1 (.write .csr (str "a.el") 3) .done)) 2 .withoutDups (fun _ => ())
      (.last (.step 5 (.saveCsr .matrix (str "b.bin") 0) .done)))

theorem exLong_weights : LWeights exLong (fun w => w.natAbs < 100) :=
  .change (Weights.signed exTypes 64 rfl rfl (fun w h => by simp only [exTypes, codecInt]; constructor <;> omega)) (fun w h => by omega)
    (ok1 := fun w : Int => w.natAbs < 100) (fun w h => by
      show (w.bmod 256).natAbs < 100
      rw [Int.bmod_eq_of_le (by omega) (by omega)]
      exact h)
    (.change (Weights.signed exTypesByte 8 rfl rfl (fun w h => by simp only [exTypesByte, codecInt]; constructor <;> omega)) (fun w h => by omega)
      (ok1 := fun _ => True) (fun _ _ => trivial) (.last (Weights.none exTypes0 rfl rfl) (fun _ _ => trivial)))

theorem exLong_start : Spec.Start exLong (fun w => w.natAbs < 100) exNet where
  ends := by decide
  weights := by
    intro e he w hw
    simp only [exNet, List.mem_cons, List.not_mem_nil, or_false] at he
    rcases he with rfl | rfl | rfl | rfl | rfl | rfl <;> (cases hw; decide)
  edges := fun _ => by decide
  parts := ⟨⟨by decide, by decide, intLt_strictWeak, by decide, by decide, ⟨by decide, trivial⟩, fun h => h.elim⟩, by decide, fun _ => rfl, by decide,
    ⟨by decide, by decide, intLt_strictWeak, by decide, by decide, ⟨by decide, by decide, ⟨by decide, by decide⟩, by decide, trivial⟩,
      fun _ _ => by decide⟩, by decide, (fun h => by cases h), by decide,
    ⟨by decide, by decide, false_strictWeak, by decide, by decide, ⟨by decide, trivial⟩, fun _ h => by cases h⟩⟩

/-- The graph of `exCoo` without duplicates, with weights. -/
def exOnce : Net Int := ⟨4, [(2, 1, some 4), (0, 3, some (-1)), (2, 0, some 7), (1, 1, some 0)]⟩

theorem exOnce_distinct : Spec.Distinct (fun a b : Int => a < b) exNet exOnce := by
  refine ⟨rfl, by decide, by decide, by decide, ?_⟩
  intro e' he' e he hee w w' hw hw'
  simp only [exNet, exOnce, List.mem_cons, List.not_mem_nil, or_false] at he he'
  rcases he' with rfl | rfl | rfl | rfl <;> rcases he with rfl | rfl | rfl | rfl | rfl | rfl <;>
    first
      | (exfalso; revert hee; decide)
      | (cases hw; cases hw'; decide)

/-- What the theorem says of `exLong`: the Matrix has the seven different entries of both directions, and their transposes, without
weights. -/
example (out : M (Matrix Unit)) (ho : (exLong.run exCoo).Out out) :
    ∃ a, out = .ok a ∧ a.csr.n = 4 ∧
      (Spec.csrEdges false a.csr).Perm [(2, 1, none), (0, 3, none), (2, 0, none), (1, 1, none), (1, 2, none), (3, 0, none), (0, 2, none)] ∧
      ∃ out', (exLong.run exCoo).Out out' := by
  obtain ⟨a, s', rfl, hd, hi⟩ := C101_retyped exLong _ exLong_weights exCoo exNet exNet_is exLong_start out ho
  obtain ⟨s1, s2, ⟨s1', h1, e1⟩, h2, s3, s4, ⟨s5, h3, s6, h4, e3⟩, h5, s7, h6, e4⟩ := hd
  rw [← e1] at h1
  rw [← e3] at h4
  rw [← e4] at h6
  have hu : Uniform true exNet := is_uniform (k := .coo) exNet_is
  have a2 : Spec.Same exOnce s2 := same_symm (distinct_same (fun a b (x : ¬ a < b) (y : ¬ b < a) => by omega) (same_symm h1) (same_uniform h1 hu) h2
    exOnce_distinct)
  have a3 : Spec.Same exOnce (Spec.reweigh true (fun w : Int => w.bmod 256) s2) := by
    have : Spec.reweigh true (fun w : Int => w.bmod 256) exOnce = exOnce := rfl
    rw [← this]
    exact ⟨a2.1, a2.2.map _⟩
  -- both directions
  have h3 : Spec.Same ⟨_, (Spec.reweigh true (fun w : Int => w.bmod 256) s2).es ++ (Spec.reweigh true (fun w : Int => w.bmod 256) s2).es.map Spec.swap⟩ s5 := h3
  have a4 : Spec.Same ⟨4, exOnce.es ++ exOnce.es.map Spec.swap⟩ s5 :=
    ⟨h3.1.trans a3.1, h3.2.trans (a3.2.append (a3.2.map Spec.swap))⟩
  have a5 : Spec.Same ⟨4, exOnce.es ++ exOnce.es.map Spec.swap⟩ s3 := by
    refine ⟨h4.1.trans ?_, h4.2.trans a4.2⟩
    dsimp only
    rw [maxLabel_perm (a4.2.map Spec.ends)]
    decide
  have h5 : Spec.Distinct exTypesByte.wlt s3 s4 := h5
  refine ⟨a, rfl, ?_, ?_, C101_retyped_runs exLong exLong_weights exLong_start.parts exCoo⟩
  · exact hi.1.n.trans (h6.1.trans (h5.n.trans a5.1))
  · refine (hi.1.edges.trans h6.2).trans ?_
    have hset : ∀ e, e ∈ s4.es.map Spec.ends ↔ e ∈ [(2, 1), (0, 3), (2, 0), (1, 1), (1, 2), (3, 0), (0, 2)] := by
      intro e
      have hs : ∀ {e}, e ∈ s3.es.map Spec.ends ↔ e ∈ [(2, 1), (0, 3), (2, 0), (1, 1), (1, 2), (3, 0), (0, 2)] := by
        intro e
        rw [(a5.2.map Spec.ends).mem_iff]
        show e ∈ [(2, 1), (0, 3), (2, 0), (1, 1), (1, 2), (3, 0), (0, 2), (1, 1)] ↔ _
        simp only [List.mem_cons, List.not_mem_nil, or_false]
        tauto
      rw [← hs]
      constructor
      · intro he
        obtain ⟨x, hx, rfl⟩ := List.mem_map.mp he
        exact List.mem_map_of_mem (h5.some_of x hx)
      · intro he
        obtain ⟨x, hx, rfl⟩ := List.mem_map.mp he
        exact h5.all x hx
    have hp := (List.perm_ext_iff_of_nodup h5.once (by decide)).mpr hset
    have := hp.map (fun e => (e.1, e.2, (none : Option Unit)))
    rw [List.map_map] at this
    exact this

end Pigo.Session
