import Verif.Lemmas.SessionText
import Mathlib.Data.List.Perm.Subperm

/-!
# Whole programs
-/

namespace Pigo.Session

variable {W : Type} {N : Nat} {ok : W → Prop}

/-! ## what the operations keep -/

theorem same_within {s s' : Net W} (h : Spec.Same s s') (hs : Within N ok s) : Within N ok s' := by
  obtain ⟨h1, h2⟩ := h
  refine ⟨by rw [h1]; exact hs.n, fun e he => ?_, fun e he => hs.w e (h2.mem_iff.mp he)⟩
  rw [h1]
  exact hs.ends e (h2.mem_iff.mp he)

theorem same_len {s s' : Net W} (h : Spec.Same s s') : s'.es.length = s.es.length := h.2.length_eq

theorem same_trans {a b c : Net W} (h : Spec.Same a b) (h' : Spec.Same b c) : Spec.Same a c := ⟨h'.1.trans h.1, h'.2.trans h.2⟩

theorem same_refl (a : Net W) : Spec.Same a a := ⟨rfl, .refl _⟩

theorem same_symm {a b : Net W} (h : Spec.Same a b) : Spec.Same b a := ⟨h.1.symm, h.2.symm⟩

theorem within_flag (f : Flags) {s : Net W} (h : Within N ok s) : Within N ok (flagNet f s) := by
  cases f with
  | none => exact h
  | symmetric =>
    have h' := within_swap h
    refine ⟨h.n, ?_, ?_⟩ <;> intro e he <;> rcases List.mem_append.mp he with he | he
    · exact h.ends e he
    · exact h'.ends e he
    · exact h.w e he
    · exact h'.w e he
  | symmetricUpper =>
    refine ⟨h.n, ?_, ?_⟩ <;> intro e he <;> obtain ⟨e', he', rfl⟩ := List.mem_map.mp he
    · have := h.ends e' he'
      simp only [Spec.order, flagNet]
      omega
    · exact h.w e' he'

theorem flag_len (f : Flags) (s : Net W) : (flagNet f s).es.length = flagFactor f * s.es.length := by
  cases f <;> simp [flagNet, flagFactor]
  omega

theorem distinct_within {wlt : W → W → Prop} {s s' : Net W} (h : Spec.Distinct wlt s s') (hs : Within N ok s) : Within N ok s' :=
  ⟨by rw [h.n]; exact hs.n, fun e he => by rw [h.n]; exact hs.ends e (h.some_of e he), fun e he => hs.w e (h.some_of e he)⟩

theorem nodup_of_map {α β : Type} {f : α → β} : ∀ {l : List α}, (l.map f).Nodup → l.Nodup
  | [], _ => List.nodup_nil
  | a :: l, h => by
    rw [List.map_cons, List.nodup_cons] at h
    rw [List.nodup_cons]
    exact ⟨fun ha => h.1 (List.mem_map_of_mem ha), nodup_of_map h.2⟩

theorem distinct_len {wlt : W → W → Prop} {s s' : Net W} (h : Spec.Distinct wlt s s') : s'.es.length ≤ s.es.length :=
  List.Subperm.length_le (List.subperm_of_subset (nodup_of_map h.once) h.some_of)

theorem distinct_ne {wlt : W → W → Prop} {s s' : Net W} (h : Spec.Distinct wlt s s') (hne : s.es ≠ []) : s'.es ≠ [] := by
  intro h0
  cases hs : s.es with
  | nil => exact hne hs
  | cons e es =>
    have := h.all e (by rw [hs]; exact List.mem_cons_self)
    rw [h0] at this
    cases this

/-- The conditions on one operation. -/
def FineOp : {k k' : Kind} → Op k k' → Prop
  | _, _, .write _ fn pad => Spec.PlainName fn ∧ 0 < pad
  | _, _, _ => True

/-- The operation writes text. -/
def WritesOp : {k k' : Kind} → Op k k' → Prop
  | _, _, .write .. => True
  | _, _, _ => False

/-- The operation converts a CSR to a COO. -/
def ConvertsOp : {k k' : Kind} → Op k k' → Prop
  | _, _, .toCoo _ => True
  | _, _, .saveCsr .coo .. => True
  | _, _, .saveCsr .graph .. => True
  | _, _, .saveCsr .matrix .. => True
  | _, _, _ => False

/-- The factor of the number of edges. -/
def opFactor : {k k' : Kind} → Op k k' → Nat
  | _, _, .toCoo .symmetric => 2
  | _, _, _ => 1

theorem fine_step {k k' k'' : Kind} {T : Nat} {op : Op k k'} {p : Prog k' k''} : Spec.Fine (.step T op p) ↔ 0 < T ∧ FineOp op ∧ Spec.Fine p := by
  cases op <;> simp [Spec.Fine, FineOp, and_assoc]

theorem writes_step {k k' k'' : Kind} {T : Nat} {op : Op k k'} {p : Prog k' k''} : Spec.Writes (.step T op p) ↔ WritesOp op ∨ Spec.Writes p := by
  cases op <;> simp [Spec.Writes, WritesOp]

theorem converts_step {k k' k'' : Kind} {T : Nat} {op : Op k k'} {p : Prog k' k''} :
    Spec.Converts (.step T op p) ↔ ConvertsOp op ∨ Spec.Converts p := by
  cases op with
  | saveCsr _ fn pad => cases k' <;> simp [Spec.Converts, ConvertsOp]
  | _ => simp [Spec.Converts, ConvertsOp]

theorem peak_step {k k' k'' : Kind} {T : Nat} {op : Op k k'} {p : Prog k' k''} {m : Nat} :
    Spec.peak (.step T op p) m = Spec.peak p (opFactor op * m) := by
  cases op with
  | toCoo f => cases f <;> simp [Spec.peak, opFactor]
  | _ => simp [Spec.peak, opFactor]

theorem peak_mono : ∀ {k k' : Kind} (p : Prog k k') {m m' : Nat}, m ≤ m' → Spec.peak p m ≤ Spec.peak p m'
  | _, _, .done, _, _, h => h
  | _, _, .step T op p, m, m', h => by
    rw [peak_step, peak_step]
    exact peak_mono p (Nat.mul_le_mul_left _ h)

theorem le_peak : ∀ {k k' : Kind} (p : Prog k k') (m : Nat), m ≤ Spec.peak p m
  | _, _, .done, _ => Nat.le_refl _
  | _, _, .step T op p, m => by
    rw [peak_step]
    refine Nat.le_trans ?_ (le_peak p _)
    have : 0 < opFactor op := by
      cases op with
      | toCoo f => cases f <;> simp [opFactor]
      | _ => simp [opFactor]
    exact Nat.le_mul_of_pos_left _ this

/-- The result of one step as one graph, when it is. -/
theorem step_cases {wlt : W → W → Prop} {k k' : Kind} {op : Op k k'} {s s' : Net W} (h : Spec.Step wlt op s s') (hs : Within N ok s)
    (hne : WritesOp op → s.es ≠ []) : Within N ok s' ∧ s'.es.length ≤ opFactor op * s.es.length ∧ (s.es ≠ [] → s'.es ≠ []) := by
  have key : ∀ (s0 : Net W), Spec.Same s0 s' → Within N ok s0 → s0.es.length = opFactor op * s.es.length →
      Within N ok s' ∧ s'.es.length ≤ opFactor op * s.es.length ∧ (s.es ≠ [] → s'.es ≠ []) := by
    intro s0 h1 h2 h3
    have h4 := same_len h1
    refine ⟨same_within h1 h2, by omega, fun hne h0 => ?_⟩
    rw [h0, h3] at h4
    have hpos : 0 < opFactor op := by
      cases op with
      | toCoo f => cases f <;> simp [opFactor]
      | _ => simp [opFactor]
    have : 0 < s.es.length := List.length_pos_iff.mpr hne
    have := Nat.mul_pos hpos this
    simp at h4
    omega
  cases op with
  | copy => exact key _ h hs (by simp [opFactor])
  | transpose => exact key _ h (within_swap hs) (by simp [opFactor])
  | toCsr => exact key _ h hs (by simp [opFactor])
  | toGraph => exact key _ h hs (by simp [opFactor])
  | toMatrix => exact key _ h hs (by simp [opFactor])
  | toCoo f =>
    have e : opFactor (.toCoo f) = flagFactor f := by cases f <;> rfl
    refine key (flagNet f s) ?_ (within_flag f hs) (by rw [flag_len, e])
    cases f <;> exact h
  | sort => exact key _ h hs (by simp [opFactor])
  | withoutDups =>
    have h : Spec.Distinct wlt s s' := h
    refine ⟨distinct_within h hs, ?_, distinct_ne h⟩
    have := distinct_len h
    simp only [opFactor]
    omega
  | outGraph => exact key _ h hs (by simp [opFactor])
  | inGraph => exact key _ h (within_swap hs) (by simp [opFactor])
  | csr => exact key _ h hs (by simp [opFactor])
  | csc => exact key _ h (within_swap hs) (by simp [opFactor])
  | saveCoo => exact key _ h hs (by simp [opFactor])
  | saveCsr => exact key _ h hs (by simp [opFactor])
  | saveGraph => exact key _ h hs (by simp [opFactor])
  | write => exact key _ h (within_text hs (hne trivial)) (by simp [opFactor])

/-! ## one operation, then all of them -/

variable [Inhabited W] {E : Types W}

theorem op_all (hE : TypesOk E N ok) {T : Nat} (hT : 0 < T) {k k' : Kind} (op : Op k k') {o : Obj W k} {s : Net W}
    (h : Spec.Is E.wk.wgt k o s) (hs : Within N ok s) (hm : opFactor op * s.es.length < 2 ^ (8 * E.ob)) (hf : FineOp op)
    (hw : WritesOp op → TextOk E ok ∧ s.es ≠ []) (hc : ConvertsOp op → E.wk.wgt = true → E.stor ≠ .vector) :
    (op.run E T o).All (fun o' => ∃ s', Spec.Step E.wlt op s s' ∧ Spec.Is E.wk.wgt k' o' s') := by
  cases op with
  | copy => exact (copy_is h).mono (fun r hr => ⟨s, same_refl s, hr⟩)
  | transpose => exact R.All.pure ⟨_, same_refl _, transpose_is h⟩
  | toCsr => exact (toCsr_is hE hT h hs (by simpa [opFactor] using hm)).mono (fun r hr => ⟨s, same_refl s, hr⟩)
  | toGraph => exact (toGraph_is hE hT h hs (by simpa [opFactor] using hm)).mono (fun r hr => ⟨s, same_refl s, hr⟩)
  | toMatrix => exact (toMatrix_is hE hT h hs (by simpa [opFactor] using hm)).mono (fun r hr => ⟨s, same_refl s, hr⟩)
  | toCoo f =>
    have e : opFactor (.toCoo f) = flagFactor f := by cases f <;> rfl
    refine (toCoo_is (T := T) f h (hc trivial) (by rw [← e]; exact hm)).mono (fun r hr => ⟨flagNet f s, ?_, hr⟩)
    cases f <;> exact same_refl _
  | sort => exact (sort_is h).mono (fun r hr => ⟨s, same_refl s, hr⟩)
  | withoutDups => exact R.All.bind (dups_is hE hT h hs) (fun r hr => R.All.pure hr)
  | outGraph => exact R.All.pure ⟨_, same_refl _, h.1⟩
  | inGraph => exact R.All.pure ⟨_, same_refl _, h.2⟩
  | csr => exact R.All.pure ⟨_, same_refl _, h.1⟩
  | csc => exact R.All.pure ⟨_, same_refl _, h.2⟩
  | saveCoo k fn pad => exact (saveCoo_is hE hT h hs (by simpa [opFactor] using hm) _ fn pad).mono (fun r hr => ⟨s, same_refl s, hr⟩)
  | saveCsr k fn pad =>
    refine (saveCsr_is hE hT h hs (by simpa [opFactor] using hm) _ ?_ fn pad).mono (fun r hr => ⟨s, same_refl s, hr⟩)
    intro hk
    refine hc ?_
    cases k' with
    | csr => exact absurd rfl hk
    | coo => exact trivial
    | graph => exact trivial
    | matrix => exact trivial
  | saveGraph fn pad => exact (saveGraph_is hE hT h hs (by simpa [opFactor] using hm) fn pad).mono (fun r hr => ⟨s, same_refl s, hr⟩)
  | write k fn pad =>
    exact (write_is hE (hw trivial).1 hT h hs (by simpa [opFactor] using hm) (hw trivial).2 _ hf.1 hf.2).mono
      (fun r hr => ⟨_, same_refl _, hr⟩)

theorem run_all (hE : TypesOk E N ok) : ∀ {k k' : Kind} (p : Prog k k') {o : Obj W k} {s : Net W}, Spec.Is E.wk.wgt k o s → Within N ok s →
    Spec.peak p s.es.length < 2 ^ (8 * E.ob) → Spec.Fine p → (Spec.Writes p → TextOk E ok ∧ s.es ≠ []) →
    (Spec.Converts p → E.wk.wgt = true → E.stor ≠ .vector) →
    (p.run E o).All (fun o' => ∃ s', Spec.Does E.wlt p s s' ∧ Spec.Is E.wk.wgt k' o' s')
  | _, _, .done, o, s, h, _, _, _, _, _ => R.All.pure ⟨s, rfl, h⟩
  | _, _, .step T op p, o, s, h, hs, hm, hf, hw, hc => by
    rw [fine_step] at hf
    rw [writes_step] at hw
    rw [converts_step] at hc
    rw [peak_step] at hm
    refine R.All.bind (op_all hE hf.1 op h hs (Nat.lt_of_le_of_lt (le_peak p _) hm) hf.2.1 (fun g => hw (.inl g)) (fun g => hc (.inl g))) ?_
    rintro o' ⟨s', hst, ho'⟩
    obtain ⟨h1, h2, h3⟩ := step_cases hst hs (fun g => (hw (.inl g)).2)
    refine (run_all hE p ho' h1 (Nat.lt_of_le_of_lt (peak_mono p h2) hm) hf.2.2 (fun g => ⟨(hw (.inr g)).1, h3 (hw (.inr g)).2⟩)
      (fun g => hc (.inr g))).mono ?_
    rintro r ⟨s'', hd, hr⟩
    exact ⟨s'', ⟨s', hst, hd⟩, hr⟩

/-! ## executions exist -/

theorem load_any {P : Params W} (hT : 0 < P.T) (k : Kind) (μ : Mapping) (fn : List Byte) : (load P k μ fn).Any := by
  cases k with
  | coo => exact coo_any P hT ..
  | csr => exact R.Any.bind (csr_any P hT ..) (fun _ => R.Any.pure _)
  | graph => exact (C87_load P hT {} μ fn 0 .auto).2.2.1
  | matrix => exact (C87_load P hT {} μ fn 0 .auto).2.2.2.1

theorem op_any (hw : Pigo.Spec.StrictWeak E.wlt) {T : Nat} (hT : 0 < T) {k k' : Kind} (op : Op k k') (o : Obj W k) : (op.run E T o).Any := by
  cases op with
  | copy => exact copyCoo_any hT _ _
  | transpose => exact R.Any.pure _
  | toCsr => exact convertCoo_any hT _ _
  | toGraph => exact fromCoo_any hT _ _
  | toMatrix => exact (C87_operations _ _ T hT {} E.stor _ E.wlt hw _ ⟨[], [], [], 0, 0, 0, 0⟩ ⟨[], [], 0, 0⟩).2.2.2.2.2.2.2.1
  | toCoo f => exact convertCsr_any hT _ _ _ _
  | sort => exact sortCsr_any hT _ hw _
  | withoutDups => exact R.Any.bind (withoutDups_any hT _ hw _) (fun _ => R.Any.pure _)
  | outGraph => exact R.Any.pure _
  | inGraph => exact R.Any.pure _
  | csr => exact R.Any.pure _
  | csc => exact R.Any.pure _
  | saveCoo => exact R.Any.bind (C37_saves_run T _ _ _ _ _ ⟨[], [], [], 0, 0, 0, 0⟩ ⟨[], [], 0, 0⟩).1 (fun _ => load_any (P := E.params T) hT ..)
  | saveCsr => exact R.Any.bind (C37_saves_run T _ _ _ _ ⟨[], [], [], 0, 0, 0, 0⟩ _ ⟨[], [], 0, 0⟩).2.1 (fun _ => load_any (P := E.params T) hT ..)
  | saveGraph =>
    exact R.Any.bind (C87_store T hT _ _ _ _ E.wt ⟨[], [], [], 0, 0, 0, 0⟩ ⟨[], [], [], 0, 0, 0, 0⟩ _ ⟨[], [], 0, 0⟩).2.2.1
      (fun _ => load_any (P := E.params T) hT ..)
  | write => exact R.Any.bind (C46_write_runs T hT 0 _ _ ⟨[], [], 0, 0⟩).1 (fun _ => load_any (P := E.params T) hT ..)

theorem run_any (hw : Pigo.Spec.StrictWeak E.wlt) : ∀ {k k' : Kind} (p : Prog k k') (o : Obj W k), Spec.Fine p → (p.run E o).Any
  | _, _, .done, _, _ => R.Any.pure _
  | _, _, .step T op p, o, hf => by
    rw [fine_step] at hf
    exact R.Any.bind (op_any hw hf.1 op o) (fun _ => run_any hw p _ hf.2.2)

end Pigo.Session
