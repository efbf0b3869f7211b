import Verif.Spec.Loose
import Verif.Props.CsrSort
import Verif.Props.Csr2

/-!
# CSR objects with more in the arrays than their rows: `sort`, `new_csr_without_dups`, conversion to a COO

A successful computation does the same on longer arrays.
-/

namespace Pigo

variable {W : Type}

theorem load_appL {α : Type} {a : List α} {i : Nat} {v : α} (t : List α) (h : load a i = .ok v) : load (a ++ t) i = .ok v := by
  have h1 : a[i]? = some v := by
    unfold load at h
    cases h1 : a[i]? with
    | none => rw [h1] at h; cases h
    | some w => rw [h1] at h; cases h; rfl
  unfold load
  have hi := (List.getElem?_eq_some_iff.mp h1).1
  rw [List.getElem?_append_left hi, h1]

theorem mapE_imp {α β : Type} {f g : α → M β} : ∀ {l : List α} {r : List β}, (∀ a b, f a = .ok b → g a = .ok b) → mapE f l = .ok r →
    mapE g l = .ok r
  | [], _, _, h => h
  | a :: l, r, hfg, h => by
    rw [mapE] at h ⊢
    cases hb : f a with
    | error e => rw [hb] at h; cases h
    | ok b =>
      rw [hb, ok_bind] at h
      rw [hfg a b hb, ok_bind]
      cases hl : mapE f l with
      | error e => rw [hl] at h; cases h
      | ok bs => rw [hl] at h; rw [mapE_imp hfg hl]; exact h

theorem loadRange_appL {α : Type} {a : List α} {s e : Nat} {r : List α} (t : List α) (h : loadRange a s e = .ok r) :
    loadRange (a ++ t) s e = .ok r := mapE_imp (fun _ _ hb => load_appL t hb) h

/-- The object with more in its arrays. -/
def extCsr (c : Csr W) (eo ee : List Nat) (m : Nat) : Csr W :=
  { c with offsets := c.offsets ++ eo, endpoints := c.endpoints ++ ee, m := m }

/-- The first `n` rows only. -/
def firstRows (c : Csr W) : Csr W :=
  { c with offsets := c.offsets.take (c.n + 1), endpoints := c.endpoints.take (Spec.off c c.n), m := Spec.off c c.n }

theorem ext_firstRows (c : Csr W) : extCsr (firstRows c) (c.offsets.drop (c.n + 1)) (Spec.beyond c) c.m = c := by
  unfold extCsr firstRows Spec.beyond
  simp

theorem off_take {c : Csr W} {v k : Nat} (h : v < k) : Spec.off ({ c with offsets := c.offsets.take k } : Csr W) v = Spec.off c v := by
  unfold Spec.off
  simp only
  rw [List.getD_eq_getElem?_getD, List.getD_eq_getElem?_getD, List.getElem?_take, if_pos h]

theorem off_firstRows {c : Csr W} {v : Nat} (h : v ≤ c.n) : Spec.off (firstRows c) v = Spec.off c v := off_take (c := c) (by omega)

theorem firstRows_valid {c : Csr W} (h : Spec.LooseCsr c) : Spec.ValidCsr (firstRows c) false where
  offsets := by show (c.offsets.take (c.n + 1)).length = _; rw [List.length_take]; exact Nat.min_eq_left h.offsets
  first := by rw [off_firstRows (Nat.zero_le _)]; exact h.first
  mono := by
    intro v hv
    have hv' : v < c.n := hv
    rw [off_firstRows (Nat.le_of_lt hv'), off_firstRows hv']
    exact h.mono v hv
  last := by rw [show (firstRows c).n = c.n from rfl, off_firstRows (Nat.le_refl _)]; rfl
  endpoints := by
    show (c.endpoints.take (Spec.off c c.n)).length = Spec.off c c.n
    rw [List.length_take, h.endpoints]; exact Nat.min_eq_left h.last
  weights := by intro h; cases h

theorem loose_off_le {c : Csr W} (h : Spec.LooseCsr c) : ∀ v, v ≤ c.n → Spec.off c v ≤ Spec.off c c.n := by
  intro v hv
  have : ∀ k, v ≤ k → k ≤ c.n → Spec.off c v ≤ Spec.off c k := by
    intro k hk
    induction hk with
    | refl => intro _; exact Nat.le_refl _
    | step hk ih =>
      intro hkn
      exact Nat.le_trans (ih (Nat.le_of_succ_le hkn)) (h.mono _ hkn)
  exact this _ hv (Nat.le_refl _)

theorem row_firstRows {c : Csr W} (h : Spec.LooseCsr c) {v : Nat} (hv : v < c.n) : Spec.row (firstRows c) v = Spec.row c v := by
  unfold Spec.row
  rw [off_firstRows (Nat.le_of_lt hv), off_firstRows hv]
  show ((c.endpoints.take _).drop _).take _ = _
  have h1 := h.mono v hv
  have h2 := loose_off_le h (v + 1) hv
  rw [List.drop_take, List.take_take, Nat.min_eq_left (by simp only [Nat.succ_eq_add_one] at *; omega)]

theorem ext_row {c : Csr W} (h : Spec.ValidCsr c false) (eo ee : List Nat) (m : Nat) {v : Nat} (hv : v < c.n) :
    Spec.off (extCsr c eo ee m) v = Spec.off c v ∧ Spec.off (extCsr c eo ee m) (v + 1) = Spec.off c (v + 1) ∧
      Spec.row (extCsr c eo ee m) v = Spec.row c v := by
  have key : ∀ i, i ≤ c.n → Spec.off (extCsr c eo ee m) i = Spec.off c i := by
    intro i hi
    unfold Spec.off extCsr
    simp only
    rw [List.getD_eq_getElem?_getD, List.getD_eq_getElem?_getD, List.getElem?_append_left (by rw [h.offsets]; omega)]
  have hl : Spec.LooseCsr c := ⟨by rw [h.offsets]; exact Nat.le_refl _, h.first, h.mono, Nat.le_of_eq h.last, h.endpoints⟩
  have h2 := loose_off_le hl (v + 1) hv
  have h3 := h.mono v hv
  have h4 := h.last
  have h5 := h.endpoints
  refine ⟨key v (by omega), key (v + 1) hv, ?_⟩
  unfold Spec.row
  rw [key v (by omega), key (v + 1) hv]
  show ((c.endpoints ++ ee).drop _).take _ = _
  rw [List.drop_append_of_le_length (by omega), List.take_append_of_le_length (by rw [List.length_drop]; omega)]

theorem ext_off_last {c : Csr W} (h : Spec.ValidCsr c false) (eo ee : List Nat) (m : Nat) : Spec.off (extCsr c eo ee m) c.n = c.m := by
  unfold Spec.off extCsr
  simp only
  rw [List.getD_eq_getElem?_getD, List.getElem?_append_left (by rw [h.offsets]; omega), ← List.getD_eq_getElem?_getD]
  exact h.last

theorem ext_beyond {c : Csr W} (h : Spec.ValidCsr c false) (eo ee : List Nat) (m : Nat) : Spec.beyond (extCsr c eo ee m) = ee := by
  unfold Spec.beyond
  rw [show (extCsr c eo ee m).n = c.n from rfl, ext_off_last h, ← h.endpoints]
  show (c.endpoints ++ ee).drop _ = _
  rw [List.drop_left]

/-! ### `sort` -/

theorem putRange_appL {α : Type} (a t : List α) (s : Nat) (vs : List α) (h : s + vs.length ≤ a.length ∨ vs = []) :
    putRange (a ++ t) s vs = putRange a s vs ++ t := by
  unfold putRange
  rcases h with h | rfl
  · rw [List.take_append_of_le_length (by omega), List.drop_append_of_le_length (by omega), ← List.append_assoc]
  · simp [List.take_append_drop]

theorem loadRange_inside {α : Type} {a : List α} {s e : Nat} {r : List α} (h : loadRange a s e = .ok r) : s + r.length ≤ a.length ∨ r = [] := by
  unfold loadRange at h
  have key : ∀ (k s : Nat) (r : List α), mapE (load a) (List.range' s k) = .ok r → r.length = k ∧ (s + r.length ≤ a.length ∨ r = []) := by
    intro k
    induction k with
    | zero => intro s r h; cases h; exact ⟨rfl, .inr rfl⟩
    | succ k ih =>
      intro s r h
      rw [List.range'_succ, mapE] at h
      cases hl : load a s with
      | error e => rw [hl] at h; cases h
      | ok b =>
        rw [hl, ok_bind] at h
        cases hm : mapE (load a) (List.range' (s + 1) k) with
        | error e => rw [hm] at h; cases h
        | ok bs =>
          rw [hm, ok_bind] at h
          cases h
          obtain ⟨h1, h2⟩ := ih (s + 1) bs hm
          have hs : s < a.length := by
            unfold load at hl
            cases h3 : a[s]? with
            | none => rw [h3] at hl; cases hl
            | some w => exact (List.getElem?_eq_some_iff.mp h3).1
          refine ⟨by simp [h1], .inl ?_⟩
          rcases h2 with h2 | rfl
          · simp; omega
          · simp; omega
  exact (key _ s r h).2

theorem sortRow_appL {srtL : Nat → List Nat → List Nat} {srtP : Nat → List (Nat × W) → List (Nat × W)} {lt : Nat → Nat → Prop}
    (hL : IsSort lt srtL) {off eo ee : List Nat} {v : Nat} {st st' : List Nat × List W}
    (h : sortRow false srtL srtP off v st = .ok st') :
    sortRow false srtL srtP (off ++ eo) v (st.1 ++ ee, st.2) = .ok (st'.1 ++ ee, st'.2) := by
  unfold sortRow at h ⊢
  cases h1 : load off v with
  | error e => rw [h1] at h; cases h
  | ok s =>
    rw [h1, ok_bind] at h
    rw [load_appL eo h1, ok_bind]
    cases h2 : load off (v + 1) with
    | error e => rw [h2] at h; cases h
    | ok e =>
      rw [h2, ok_bind] at h
      rw [load_appL eo h2, ok_bind]
      cases h3 : loadRange st.1 s e with
      | error e => rw [h3] at h; cases h
      | ok us =>
        rw [h3, ok_bind] at h
        rw [loadRange_appL ee h3, ok_bind]
        simp only [Bool.false_eq_true, if_false] at h ⊢
        injection h with h
        subst h
        have hl := (hL v us).1.length_eq
        rw [putRange_appL]
        rcases loadRange_inside h3 with hi | hi
        · exact .inl (by rw [hl]; exact hi)
        · exact .inr (List.length_eq_zero_iff.mp (by rw [hl, hi]; rfl))

theorem runSort_appL {srtL : Nat → List Nat → List Nat} {srtP : Nat → List (Nat × W) → List (Nat × W)} {lt : Nat → Nat → Prop}
    (hL : IsSort lt srtL) {off eo ee : List Nat} : ∀ {sched : List Nat} {st st' : List Nat × List W},
    runActs (sortRow false srtL srtP off) sched st = .ok st' →
    runActs (sortRow false srtL srtP (off ++ eo)) sched (st.1 ++ ee, st.2) = .ok (st'.1 ++ ee, st'.2)
  | [], st, st', h => by cases h; rfl
  | v :: sched, st, st', h => by
    rw [runActs] at h ⊢
    cases h1 : sortRow false srtL srtP off v st with
    | error e => rw [h1] at h; cases h
    | ok st1 =>
      rw [h1, ok_bind] at h
      rw [sortRow_appL hL h1, ok_bind]
      exact runSort_appL hL h

theorem sortCsr_ext [Inhabited W] {T : Nat} {wlt : W → W → Prop} {c : Csr W} (hc : Spec.ValidCsr c false) (eo ee : List Nat) (m : Nat) :
    (sortCsr T false wlt (extCsr c eo ee m)).All (fun r => ∃ r0, (sortCsr T false wlt c).Out (.ok r0) ∧ r = extCsr r0 eo ee m) := by
  rintro out ⟨o1, ⟨srtL, hL, rfl⟩, o2, ⟨srtP, hP, rfl⟩, o3, ⟨its, hits, rfl⟩, o4, ⟨sched, hs, rfl⟩, h4⟩
  have hall := C32_sort T false wlt c hc
  have hrun : (sortCsr T false wlt c).Out (runActs (sortRow false srtL srtP c.offsets) sched (c.endpoints, c.weights) >>= fun p =>
      .ok { c with endpoints := p.1, weights := p.2 }) := by
    refine ⟨_, ⟨srtL, hL, rfl⟩, _, ⟨srtP, hP, rfl⟩, _, ⟨its, hits, rfl⟩, _, ⟨sched, hs, rfl⟩, ?_⟩
    cases runActs (sortRow false srtL srtP c.offsets) sched (c.endpoints, c.weights) with
    | error e => rfl
    | ok p => rfl
  obtain ⟨r0, h5, _⟩ := hall _ hrun
  rw [h5] at hrun
  cases h6 : runActs (sortRow false srtL srtP c.offsets) sched (c.endpoints, c.weights) with
  | error e => rw [h6] at h5; cases h5
  | ok p =>
    rw [h6, ok_bind] at h5
    injection h5 with h5
    have h7 := runSort_appL (eo := eo) (ee := ee) hL h6
    have h8 : runActs (sortRow false srtL srtP (extCsr c eo ee m).offsets) sched ((extCsr c eo ee m).endpoints, (extCsr c eo ee m).weights) =
      .ok (p.1 ++ ee, p.2) := h7
    rw [h8] at h4
    refine ⟨_, h4, r0, hrun, ?_⟩
    rw [← h5]
    rfl

/-! ### `new_csr_without_dups` -/

theorem R.bind_congrOut {α β : Type} {p : R α} {k k' : α → R β} (h : ∀ a, p.Out (.ok a) → k a = k' a) : (p >>= k) = (p >>= k') := by
  funext out
  apply propext
  constructor
  · rintro ⟨o, ho, h1⟩
    refine ⟨o, ho, ?_⟩
    cases o with
    | error e => exact h1
    | ok a => show k' a out; rw [← h a ho]; exact h1
  · rintro ⟨o, ho, h1⟩
    refine ⟨o, ho, ?_⟩
    cases o with
    | error e => exact h1
    | ok a => show k a out; rw [h a ho]; exact h1

theorem dupDeg_appL {lw : Nat} {c : Csr W} (eo ee : List Nat) (m : Nat) {v d : Nat} (h : dupDeg lw c v = .ok d) :
    dupDeg lw (extCsr c eo ee m) v = .ok d := by
  unfold dupDeg at h ⊢
  cases h1 : load c.offsets v with
  | error e => rw [h1] at h; cases h
  | ok s =>
    rw [h1, ok_bind] at h
    rw [show (extCsr c eo ee m).offsets = c.offsets ++ eo from rfl, load_appL eo h1, ok_bind]
    cases h2 : load c.offsets (v + 1) with
    | error e => rw [h2] at h; cases h
    | ok e =>
      rw [h2, ok_bind] at h
      rw [load_appL eo h2, ok_bind]
      cases h3 : loadRange c.endpoints s e with
      | error e => rw [h3] at h; cases h
      | ok us =>
        rw [h3, ok_bind] at h
        rw [show (extCsr c eo ee m).endpoints = c.endpoints ++ ee from rfl, loadRange_appL ee h3, ok_bind]
        exact h

theorem dupCopy_appL {c : Csr W} (eo ee : List Nat) (m : Nat) {offs : List Nat} {v : Nat} {r : List ((Nat × Nat) ⊕ (Nat × W))}
    (h : dupCopy false c offs v = .ok r) : dupCopy false (extCsr c eo ee m) offs v = .ok r := by
  unfold dupCopy at h ⊢
  cases h1 : load c.offsets v with
  | error e => rw [h1] at h; cases h
  | ok s =>
    rw [h1, ok_bind] at h
    rw [show (extCsr c eo ee m).offsets = c.offsets ++ eo from rfl, load_appL eo h1, ok_bind]
    cases h2 : load c.offsets (v + 1) with
    | error e => rw [h2] at h; cases h
    | ok e =>
      rw [h2, ok_bind] at h
      rw [load_appL eo h2, ok_bind]
      cases h3 : loadRange c.endpoints s e with
      | error e => rw [h3] at h; cases h
      | ok us =>
        rw [h3, ok_bind] at h
        rw [show (extCsr c eo ee m).endpoints = c.endpoints ++ ee from rfl, loadRange_appL ee h3, ok_bind]
        exact h

/-- The part of `new_csr_without_dups` after sorting. -/
def dupRest {α : Type} (lw T : Nat) (c : Csr W) (f : Csr W → α) : R α := do
  let n := c.n
  let junkDegs ← R.any (Nat → Nat)
  let its ← R.choose (OmpDyn n T)
  let counts ← R.lift (mapE (fun vs => mapE (fun v => dupDeg lw c v >>= fun d => .ok (v, d)) vs) its)
  let degs ← R.par storeAct counts (alloc junkDegs n)
  let newM := (counts.map (fun t => (t.map Prod.snd).sum)).sum
  let j ← R.any (CsrJunk W)
  let junkStart ← R.any (Nat → Nat)
  let starts ← R.par storeAct ((List.range T).map (fun tid => [(tid, (slice degs n T tid).sum)])) (alloc junkStart T)
  let starts := prefixSums 0 starts
  let offsets ← R.par storeAct (offsetThreads n newM T degs starts) (alloc j.offsets (plusOne lw n))
  let its ← R.choose (OmpDyn n T)
  let threads ← R.lift (mapE (fun vs => mapE (dupCopy false c offsets) vs) its)
  let (ep, ws) ← R.par (sumStep storeAct storeAct) (threads.map List.flatten)
    (alloc j.endpoints newM, if false then alloc j.weights newM else [])
  pure (f { offsets := offsets, endpoints := ep, weights := ws, n := n, m := newM, nrows := c.nrows, ncols := c.ncols })

theorem withoutDups_eq (lw T : Nat) (wlt : W → W → Prop) (c : Csr W) :
    withoutDups lw T false wlt c = (sortCsr T false wlt c >>= fun c => dupRest lw T c (fun d => (c, d))) := rfl

/-! Runs of programs that differ in places where one of them does not fail. -/

theorem all_sim {α β γ : Type} {p : R α} {k : α → R β} {k' : α → R γ} {Q : β → Prop} {Q' : γ → Prop} (h : (p >>= k).All Q)
    (hk : ∀ x, (k x).All Q → (k' x).All Q') : (p >>= k').All Q' := by
  rintro out ⟨o, ho, h1⟩
  cases o with
  | error e =>
    obtain ⟨a, ha, _⟩ := h (.error e) ⟨.error e, ho, rfl⟩
    cases ha
  | ok x => exact hk x (fun o2 h2 => h o2 ⟨.ok x, ho, h2⟩) out h1

theorem all_sim_lift {α β γ : Type} {o o' : M α} {k : α → R β} {k' : α → R γ} {Q : β → Prop} {Q' : γ → Prop}
    (h : (R.lift o >>= k).All Q) (ho : ∀ x, o = .ok x → o' = .ok x) (hk : ∀ x, o = .ok x → (k x).All Q → (k' x).All Q') :
    (R.lift o' >>= k').All Q' := by
  rintro out ⟨o1, rfl, h1⟩
  cases o with
  | error e =>
    obtain ⟨a, ha, _⟩ := h (.error e) ⟨.error e, rfl, rfl⟩
    cases ha
  | ok x =>
    rw [ho x rfl] at h1
    exact hk x rfl (fun o2 h2 => h o2 ⟨.ok x, rfl, h2⟩) out h1

theorem all_sim_par {α S S' β γ : Type} {step : α → S → M S} {step' : α → S' → M S'} {threads : List (List α)} {s : S} {s' : S'}
    (φ : S → S') {k : S → R β} {k' : S' → R γ} {Q : β → Prop} {Q' : γ → Prop} (h : (R.par step threads s >>= k).All Q)
    (hr : ∀ sched s1, runActs step sched s = .ok s1 → runActs step' sched s' = .ok (φ s1))
    (hk : ∀ x, (k x).All Q → (k' (φ x)).All Q') : (R.par step' threads s' >>= k').All Q' := by
  rintro out ⟨o1, ⟨sched, hs, rfl⟩, h1⟩
  cases hr1 : runActs step sched s with
  | error e =>
    obtain ⟨a, ha, _⟩ := h (.error e) ⟨.error e, ⟨sched, hs, hr1.symm⟩, rfl⟩
    cases ha
  | ok x =>
    rw [hr sched x hr1] at h1
    exact hk x (fun o2 h2 => h o2 ⟨.ok x, ⟨sched, hs, hr1.symm⟩, h2⟩) out h1

theorem all_of_pure {α : Type} {a : α} {Q : α → Prop} (h : (pure a : R α).All Q) : Q a := by
  obtain ⟨b, hb, hq⟩ := h (.ok a) rfl
  cases hb; exact hq

theorem dupRest_ext (lw T : Nat) {α β : Type} (c : Csr W) (eo ee : List Nat) (m : Nat) (f : Csr W → α) (g : Csr W → β)
    (Q : α → Prop) (h : (dupRest lw T c f).All Q) :
    (dupRest lw T (extCsr c eo ee m) g).All (fun r => ∃ d, Q (f d) ∧ r = g d) := by
  refine all_sim h (fun jd h => ?_)
  refine all_sim h (fun its h => ?_)
  refine all_sim_lift h (fun x hx => mapE_imp (fun vs b hb => mapE_imp (fun v d hd => ?_) hb) hx) (fun counts _ h => ?_)
  · cases h1 : dupDeg lw c v with
    | error e => rw [h1] at hd; cases hd
    | ok d1 => rw [h1] at hd; rw [dupDeg_appL eo ee m h1]; exact hd
  refine all_sim h (fun degs h => ?_)
  refine all_sim h (fun j h => ?_)
  refine all_sim h (fun js h => ?_)
  refine all_sim h (fun starts h => ?_)
  refine all_sim h (fun offs h => ?_)
  refine all_sim h (fun its2 h => ?_)
  refine all_sim_lift h (fun x hx => mapE_imp (fun vs b hb => mapE_imp (fun v d hd => dupCopy_appL eo ee m hd) hb) hx) (fun threads _ h => ?_)
  refine all_sim h (fun st h => ?_)
  exact R.All.pure ⟨_, all_of_pure h, rfl⟩

theorem withoutDups_ext [Inhabited W] {lw T : Nat} {wlt : W → W → Prop} {c : Csr W} (hc : Spec.ValidCsr c false) (eo ee : List Nat) (m : Nat)
    {Q : Csr W × Csr W → Prop} (h : (withoutDups lw T false wlt c).All Q) :
    (withoutDups lw T false wlt (extCsr c eo ee m)).All (fun r => ∃ r0, Q (r0, r.2) ∧ r.1 = extCsr r0 eo ee m) := by
  rw [withoutDups_eq] at h ⊢
  refine R.All.bind (sortCsr_ext (T := T) (wlt := wlt) hc eo ee m) (fun r1 hr1 => ?_)
  obtain ⟨r0, h0, rfl⟩ := hr1
  have h1 : (dupRest lw T r0 (fun d => (r0, d))).All Q := fun o ho => h o ⟨.ok r0, h0, ho⟩
  exact (dupRest_ext lw T r0 eo ee m _ _ Q h1).mono (fun r ⟨d, hq, he⟩ => by subst he; exact ⟨r0, hq, rfl⟩)

/-! ### `convert_csr_` -/

/-- Longer arrays. -/
def Mem.app (s : Mem W) (tx ty : List Nat) : Mem W := { x := s.x ++ tx, y := s.y ++ ty, w := s.w }

theorem store_appL {α : Type} {a a' : List α} {i : Nat} {v : α} (t : List α) (h : store a i v = .ok a') : store (a ++ t) i v = .ok (a' ++ t) := by
  unfold store at h ⊢
  split at h
  · next hi =>
    injection h with h
    subst h
    rw [if_pos (by rw [List.length_append]; omega), List.set_append_left _ _ hi]
  · cases h

theorem stepAct_app {a : Act W} {s s' : Mem W} (tx ty : List Nat) (h : stepAct a s = .ok s') : stepAct a (s.app tx ty) = .ok (s'.app tx ty) := by
  cases a with
  | setX i v =>
    cases h1 : store s.x i v with
    | error e => simp only [stepAct, h1] at h; cases h
    | ok x =>
      simp only [stepAct, h1, ok_bind] at h
      injection h with h
      subst h
      show (store (s.x ++ tx) i v >>= _) = _
      rw [store_appL tx h1]; rfl
  | setY i v =>
    cases h1 : store s.y i v with
    | error e => simp only [stepAct, h1] at h; cases h
    | ok x =>
      simp only [stepAct, h1, ok_bind] at h
      injection h with h
      subst h
      show (store (s.y ++ ty) i v >>= _) = _
      rw [store_appL ty h1]; rfl
  | setW i v =>
    cases h1 : store s.w i v with
    | error e => simp only [stepAct, h1] at h; cases h
    | ok x =>
      simp only [stepAct, h1, ok_bind] at h
      injection h with h
      subst h
      show (store s.w i v >>= _) = _
      rw [h1]; rfl
  | copyW d c =>
    cases h1 : s.w[c]? with
    | none => simp only [stepAct, h1] at h; cases h
    | some v =>
      cases h2 : store s.w d v with
      | error e => simp only [stepAct, h1, h2] at h; cases h
      | ok w =>
        simp only [stepAct, h1, h2, ok_bind] at h
        injection h with h
        subst h
        show stepAct (.copyW d c) ⟨s.x ++ tx, s.y ++ ty, s.w⟩ = _
        simp only [stepAct, h1, h2, ok_bind]; rfl

theorem runActs_longer (tx ty : List Nat) : ∀ {sched : List (Act W)} {s s' : Mem W}, runActs stepAct sched s = .ok s' →
    runActs stepAct sched (s.app tx ty) = .ok (s'.app tx ty)
  | [], s, s', h => by cases h; rfl
  | a :: sched, s, s', h => by
    rw [runActs] at h ⊢
    cases h1 : stepAct a s with
    | error e => rw [h1] at h; cases h
    | ok s1 =>
      rw [h1, ok_bind] at h
      rw [stepAct_app tx ty h1, ok_bind]
      exact runActs_longer tx ty h

/-- What uninitialised memory holds at the positions from `p` on. -/
def junkFrom (j : Nat → Nat) (p k : Nat) : List Nat := (List.range' p k).map j

theorem alloc_split (j : Nat → Nat) (p k : Nat) : alloc j (p + k) = alloc j p ++ junkFrom j p k := by
  unfold alloc junkFrom
  rw [← List.map_append, List.range_eq_range', List.range_eq_range', show (List.range' 0 p ++ List.range' p k) = List.range' 0 (p + k) from by
    have := List.range'_append_1 (s := 0) (m := p) (n := k)
    simpa using this]

theorem allocCoo_split (j : Junk W) (p k : Nat) : allocCoo false j (p + k) = (allocCoo false j p).app (junkFrom j.x p k) (junkFrom j.y p k) := by
  unfold allocCoo Mem.app
  simp only [alloc_split]
  rfl

theorem csrRow_appL {stor : Storage} {cfg : Cfg} {c : Csr W} (eo ee : List Nat) (m : Nat) {v : Nat} {r : List (Act W)}
    (h : csrRow stor cfg false c v = .ok r) : csrRow stor cfg false (extCsr c eo ee m) v = .ok r := by
  unfold csrRow at h ⊢
  cases h1 : load c.offsets v with
  | error e => rw [h1] at h; cases h
  | ok s =>
    rw [h1, ok_bind] at h
    rw [show (extCsr c eo ee m).offsets = c.offsets ++ eo from rfl, load_appL eo h1, ok_bind]
    cases h2 : load c.offsets (v + 1) with
    | error e => rw [h2] at h; cases h
    | ok e =>
      rw [h2, ok_bind] at h
      rw [load_appL eo h2, ok_bind]
      cases h3 : loadRange c.endpoints s e with
      | error e => rw [h3] at h; cases h
      | ok us =>
        rw [h3, ok_bind] at h
        rw [show (extCsr c eo ee m).endpoints = c.endpoints ++ ee from rfl, loadRange_appL ee h3, ok_bind]
        exact h

/-- The COO with `k` more entries of unknown content. -/
def extCoo (r : Coo W) (j : Junk W) (k : Nat) : Coo W :=
  { r with x := r.x ++ junkFrom j.x r.m k, y := r.y ++ junkFrom j.y r.m k, m := r.m + k }

theorem csrSize (cfg : Cfg) (hut : cfg.ut = true → cfg.sym = true) {ow m : Nat} (hm : csrFactor cfg * m < 2 ^ ow) :
    (if cfg.sym && !cfg.ut then .ok (m * 2 % 2 ^ ow) else if !cfg.sym && cfg.ut then .error .nyi else .ok m : M Nat) =
      .ok (csrFactor cfg * m) := by
  unfold csrFactor at hm ⊢
  rcases cfg with ⟨s, u, l⟩
  cases s <;> cases u
  · simp
  · simp at hut
  · simp only [Bool.not_false, Bool.and_self, if_true] at hm ⊢
    rw [Nat.mul_comm m 2, Nat.mod_eq_of_lt hm]
  · simp

/-- The part of `convert_csr_` after the sizes. -/
def convRest {α : Type} (T : Nat) (stor : Storage) (cfg : Cfg) (c : Csr W) (m : Nat) (f : Mem W → α) (j : Junk W) : R α := do
  let its ← R.choose (OmpDyn c.n T)
  let threads ← R.lift (mapE (fun vs => mapE (csrRow stor cfg false c) vs) its)
  let mem ← R.par stepAct (threads.map List.flatten) (allocCoo false j m)
  pure (f mem)

theorem convRest_ext {α β : Type} {T : Nat} {stor : Storage} {cfg : Cfg} {c : Csr W} {eo ee : List Nat} {m p k : Nat} {f : Mem W → α} {g : Mem W → β}
    {j : Junk W} {Q : α → Prop} (h : (convRest T stor cfg c p f j).All Q) :
    (convRest T stor cfg (extCsr c eo ee m) (p + k) g j).All
      (fun r => ∃ s, Q (f s) ∧ r = g (s.app (junkFrom j.x p k) (junkFrom j.y p k))) := by
  refine all_sim h (fun its h => ?_)
  refine all_sim_lift h (fun x hx => mapE_imp (fun vs b hb => mapE_imp (fun v d hd => csrRow_appL eo ee m hd) hb) hx) (fun threads _ h => ?_)
  refine all_sim_par (fun s => s.app (junkFrom j.x p k) (junkFrom j.y p k)) h (fun sched s1 hr => ?_) (fun s h => ?_)
  · rw [allocCoo_split]; exact runActs_longer _ _ hr
  · exact R.All.pure ⟨_, all_of_pure h, rfl⟩

/-- All conversions of the longer object, for each content `j` of the allocated memory and unset dimensions. -/
theorem convertCsr_split {ow T : Nat} {stor : Storage} {cfg : Cfg} (hsl : cfg.sl = false) (hut : cfg.ut = true → cfg.sym = true) {c : Csr W}
    (hm : csrFactor cfg * c.m < 2 ^ ow) (o : M (Coo W)) :
    (convertCsr ow T stor cfg false c).Out o ↔ ∃ (nr nc : Nat) (j : Junk W),
      (convRest T stor cfg c (csrFactor cfg * c.m)
        (fun mem => { x := mem.x, y := mem.y, w := mem.w, n := c.n, m := csrFactor cfg * c.m, nrows := nr, ncols := nc }) j).Out o := by
  unfold convertCsr
  rw [csrSize cfg hut hm, hsl]
  constructor
  · rintro ⟨_, ⟨nr, _, rfl⟩, _, ⟨nc, _, rfl⟩, _, rfl, _, ⟨j, _, rfl⟩, h⟩
    exact ⟨nr, nc, j, h⟩
  · rintro ⟨nr, nc, j, h⟩
    exact ⟨_, ⟨nr, trivial, rfl⟩, _, ⟨nc, trivial, rfl⟩, _, rfl, _, ⟨j, trivial, rfl⟩, h⟩

theorem convertCsr_ext {ow T : Nat} {stor : Storage} {cfg : Cfg} (hsl : cfg.sl = false) (hut : cfg.ut = true → cfg.sym = true) {c : Csr W}
    {eo ee : List Nat} {k : Nat} (hm : csrFactor cfg * (c.m + k) < 2 ^ ow) {Q : Coo W → Prop}
    (h : (convertCsr ow T stor cfg false c).All Q) :
    (convertCsr ow T stor cfg false (extCsr c eo ee (c.m + k))).All
      (fun r => ∃ r0 j, Q r0 ∧ r0.m = csrFactor cfg * c.m ∧ r0.n = c.n ∧ r = extCoo r0 j (csrFactor cfg * k)) := by
  have hm0 : csrFactor cfg * c.m < 2 ^ ow := Nat.lt_of_le_of_lt (Nat.mul_le_mul_left _ (Nat.le_add_right ..)) hm
  intro o ho
  rw [convertCsr_split hsl hut hm] at ho
  obtain ⟨nr, nc, j, ho⟩ := ho
  have h1 : (convRest T stor cfg c (csrFactor cfg * c.m)
      (fun mem => ({ x := mem.x, y := mem.y, w := mem.w, n := c.n, m := csrFactor cfg * c.m, nrows := nr, ncols := nc } : Coo W)) j).All Q :=
    fun o ho => h o ((convertCsr_split hsl hut hm0 o).mpr ⟨nr, nc, j, ho⟩)
  rw [show (extCsr c eo ee (c.m + k)).m = c.m + k from rfl, Nat.mul_add] at ho
  obtain ⟨r, rfl, s, hq, rfl⟩ := convRest_ext h1 o ho
  exact ⟨_, rfl, _, j, hq, rfl, rfl, rfl⟩

/-- Each content of the memory is possible. -/
theorem convertCsr_ext_any {ow T : Nat} (hT : 0 < T) {stor : Storage} {cfg : Cfg} (hsl : cfg.sl = false) (hut : cfg.ut = true → cfg.sym = true) {c : Csr W}
    {eo ee : List Nat} {k : Nat} (hm : csrFactor cfg * (c.m + k) < 2 ^ ow) {Q : Coo W → Prop}
    (h : (convertCsr ow T stor cfg false c).All Q) (j : Junk W) (nr nc : Nat) :
    ∃ r0, Q r0 ∧ r0.m = csrFactor cfg * c.m ∧ r0.n = c.n ∧ r0.nrows = nr ∧ r0.ncols = nc ∧
      (convertCsr ow T stor cfg false (extCsr c eo ee (c.m + k))).Out (.ok (extCoo r0 j (csrFactor cfg * k))) := by
  have hm0 : csrFactor cfg * c.m < 2 ^ ow := Nat.lt_of_le_of_lt (Nat.mul_le_mul_left _ (Nat.le_add_right ..)) hm
  have h1 : (convRest T stor cfg c (csrFactor cfg * c.m)
      (fun mem => ({ x := mem.x, y := mem.y, w := mem.w, n := c.n, m := csrFactor cfg * c.m, nrows := nr, ncols := nc } : Coo W)) j).All Q :=
    fun o ho => h o ((convertCsr_split hsl hut hm0 o).mpr ⟨nr, nc, j, ho⟩)
  have hany : (convRest T stor cfg (extCsr c eo ee (c.m + k)) (csrFactor cfg * c.m + csrFactor cfg * k)
      (fun mem => ({ x := mem.x, y := mem.y, w := mem.w, n := c.n, m := csrFactor cfg * (c.m + k), nrows := nr, ncols := nc } : Coo W)) j).Any := by
    refine R.Any.bind (R.Any.choose (OmpFor.one _ _ hT).dyn) (fun its => ?_)
    exact R.Any.bind (R.Any.lift _) (fun _ => R.Any.bind (R.Any.par ..) (fun _ => R.Any.pure _))
  obtain ⟨o, ho⟩ := hany
  obtain ⟨r, rfl, s, hq, hr⟩ := convRest_ext h1 o ho
  refine ⟨_, hq, rfl, rfl, rfl, rfl, (convertCsr_split hsl hut hm _).mpr ⟨nr, nc, j, ?_⟩⟩
  rw [show (extCsr c eo ee (c.m + k)).m = c.m + k from rfl, Nat.mul_add]
  rw [hr, Nat.mul_add] at ho
  exact ho

end Pigo
