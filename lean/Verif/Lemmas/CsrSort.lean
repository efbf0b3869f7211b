import Verif.Lemmas.CsrOps

/-!
# `CSR::sort`
-/

namespace Pigo

variable {W : Type}

/-- The row after sorting. -/
def sortedRow (wgt : Bool) (srtL : Nat → List Nat → List Nat) (srtP : Nat → List (Nat × W) → List (Nat × W))
    (v : Nat) (r : List (Nat × W)) : List (Nat × W) :=
  if wgt then srtP v r else (srtL v (r.map Prod.fst)).zip (r.map Prod.snd)

theorem sortedRow_length {wgt : Bool} {srtL : Nat → List Nat → List Nat} {srtP : Nat → List (Nat × W) → List (Nat × W)}
    {lt : Nat × W → Nat × W → Prop} (hL : IsSort (fun a b : Nat => a < b) srtL) (hP : IsSort lt srtP) (v : Nat) (r : List (Nat × W)) :
    (sortedRow wgt srtL srtP v r).length = r.length := by
  cases wgt
  · simp [sortedRow, (hL v (r.map Prod.fst)).1.length_eq]
  · simp [sortedRow, (hP v r).1.length_eq]

theorem sortedRow_fst {srtL : Nat → List Nat → List Nat} {srtP : Nat → List (Nat × W) → List (Nat × W)}
    (hL : IsSort (fun a b : Nat => a < b) srtL) (v : Nat) (r : List (Nat × W)) :
    (sortedRow false srtL srtP v r).map Prod.fst = srtL v (r.map Prod.fst) := by
  simp only [sortedRow, Bool.false_eq_true, if_false]
  rw [List.map_fst_zip]
  simp [(hL v (r.map Prod.fst)).1.length_eq]

theorem flatten_set {α : Type} (rows : List (List α)) {v : Nat} {r r' : List α} (hr : rows[v]? = some r) :
    (rows.set v r').flatten = (rows.take v).flatten ++ r' ++ (rows.drop (v + 1)).flatten := by
  obtain ⟨hv, _⟩ := List.getElem?_eq_some_iff.mp hr
  rw [List.set_eq_take_append_cons_drop, if_pos hv]
  simp

theorem flatten_split {α : Type} (rows : List (List α)) {v : Nat} {r : List α} (hr : rows[v]? = some r) :
    rows.flatten = (rows.take v).flatten ++ (r ++ (rows.drop (v + 1)).flatten) := by
  obtain ⟨hv, rfl⟩ := List.getElem?_eq_some_iff.mp hr
  rw [← List.flatten_cons, ← List.drop_eq_getElem_cons hv, ← List.flatten_append, List.take_append_drop]

theorem putRange_map {α β : Type} (f : α → β) (rows : List (List α)) {v : Nat} {r r' : List α} (hr : rows[v]? = some r)
    (hl : r'.length = r.length) :
    putRange (rows.flatten.map f) (rows.take v).flatten.length (r'.map f) = (rows.set v r').flatten.map f := by
  have e : (rows.take v).flatten.length + (r'.map f).length = ((rows.take v).flatten ++ r).length := by
    rw [List.length_map, hl, List.length_append]
  rw [flatten_set rows hr, putRange, ← List.map_take, ← List.map_drop, e]
  rw [flatten_split rows hr, List.take_left, ← List.append_assoc, List.drop_left]
  simp only [List.map_append]

theorem map_length_set {rows : List (List (Nat × W))} {v : Nat} {r r' : List (Nat × W)} (hr : rows[v]? = some r)
    (hl : r'.length = r.length) : (rows.set v r').map List.length = rows.map List.length := by
  obtain ⟨hv, rfl⟩ := List.getElem?_eq_some_iff.mp hr
  rw [List.map_set, hl]
  apply List.ext_getElem?
  intro i
  by_cases h : v = i
  · subst h; rw [List.getElem?_set_self (by simpa using hv)]; simp [hv]
  · rw [List.getElem?_set_ne h]

/-- One iteration of `sort`. -/
theorem sortRow_step {c : Csr W} {wgt : Bool} {rows : List (List (Nat × W))} (h : IsCsr c wgt rows)
    {srtL : Nat → List Nat → List Nat} {srtP : Nat → List (Nat × W) → List (Nat × W)} {lt : Nat × W → Nat × W → Prop}
    (hL : IsSort (fun a b : Nat => a < b) srtL) (hP : IsSort lt srtP) {v : Nat} {r : List (Nat × W)} (hr : rows[v]? = some r) :
    ∃ st', sortRow wgt srtL srtP c.offsets v (c.endpoints, c.weights) = .ok st' ∧
      IsCsr { c with endpoints := st'.1, weights := st'.2 } wgt (rows.set v (sortedRow wgt srtL srtP v r)) := by
  obtain ⟨h1, h2, h3, h4⟩ := h.load_row hr
  have hl := sortedRow_length (wgt := wgt) hL hP v r
  have hflat : (rows.set v (sortedRow wgt srtL srtP v r)).flatten.length = rows.flatten.length := by
    rw [flatten_set rows hr, flatten_split rows hr]
    simp only [List.length_append]
    omega
  unfold sortRow
  rw [h1, ok_bind, h2, ok_bind]
  simp only [h3, ok_bind]
  cases hw : wgt with
  | true =>
    have h4' := h4 hw
    simp only [h4', ok_bind, if_true]
    refine ⟨_, rfl, ?_⟩
    have hz : (r.map Prod.fst).zip (r.map Prod.snd) = r := by
      rw [List.zip_map', List.map_id'']
      intro p; rfl
    rw [hz]
    have hl' : (srtP v r).length = r.length := (hP v r).1.length_eq
    subst hw
    simp only [sortedRow, if_true] at hflat ⊢
    refine ⟨by rw [List.length_set]; exact h.n, by rw [hflat]; exact h.m,
      by rw [map_length_set hr hl']; exact h.offsets, ?_, fun _ => ?_⟩
    · show putRange c.endpoints _ _ = _
      rw [h.endpoints, putRange_map Prod.fst rows hr hl']
    · show putRange c.weights _ _ = _
      rw [h.weights rfl, putRange_map Prod.snd rows hr hl']
  | false =>
    simp only [Bool.false_eq_true, if_false]
    refine ⟨_, rfl, ?_⟩
    subst hw
    refine ⟨by rw [List.length_set]; exact h.n, by rw [hflat]; exact h.m,
      by rw [map_length_set hr hl]; exact h.offsets, ?_, fun hc => by cases hc⟩
    show putRange c.endpoints _ _ = _
    rw [h.endpoints, ← sortedRow_fst (srtP := srtP) hL v r, putRange_map Prod.fst rows hr hl]

/-- The rows after sorting those in `D`. -/
def sortedRows (wgt : Bool) (srtL : Nat → List Nat → List Nat) (srtP : Nat → List (Nat × W) → List (Nat × W))
    (rows : List (List (Nat × W))) : List (List (Nat × W)) :=
  rows.mapIdx (fun v r => sortedRow wgt srtL srtP v r)

theorem run_sort {wgt : Bool} {srtL : Nat → List Nat → List Nat} {srtP : Nat → List (Nat × W) → List (Nat × W)}
    {lt : Nat × W → Nat × W → Prop} (hL : IsSort (fun a b : Nat => a < b) srtL) (hP : IsSort lt srtP) (sched : List Nat) :
    ∀ (c : Csr W) (rows : List (List (Nat × W))), IsCsr c wgt rows → sched.Nodup → (∀ v ∈ sched, v < rows.length) →
    ∃ st', runActs (sortRow wgt srtL srtP c.offsets) sched (c.endpoints, c.weights) = .ok st' ∧
      ∃ rows', IsCsr { c with endpoints := st'.1, weights := st'.2 } wgt rows' ∧ rows'.length = rows.length ∧
      ∀ v, rows'[v]? = if v ∈ sched then rows[v]?.map (sortedRow wgt srtL srtP v) else rows[v]? := by
  induction sched with
  | nil => intro c rows h _ _; exact ⟨_, rfl, rows, h, rfl, by simp⟩
  | cons v sched ih =>
    intro c rows h hn hlt
    rw [List.nodup_cons] at hn
    have hv := hlt v (List.mem_cons_self ..)
    obtain ⟨st1, h1, h2⟩ := sortRow_step h hL hP (List.getElem?_eq_getElem hv)
    obtain ⟨st2, h3, rows2, h4, h5, h6⟩ := ih _ _ h2 hn.2 (fun u hu => by
      rw [List.length_set]; exact hlt u (List.mem_cons_of_mem _ hu))
    refine ⟨st2, ?_, rows2, h4, by rw [h5, List.length_set], ?_⟩
    · rw [runActs, h1, ok_bind]; exact h3
    · intro u
      rw [h6 u]
      by_cases e : v = u
      · subst e
        rw [if_neg hn.1, if_pos (List.mem_cons_self ..), List.getElem?_set_self hv, List.getElem?_eq_getElem hv]; rfl
      · rw [List.getElem?_set_ne e]
        simp [Ne.symm e]

/-- All executions of `sort`. -/
theorem sortCsr_all {T : Nat} {wgt : Bool} {wlt : W → W → Prop} {c : Csr W} {rows : List (List (Nat × W))} (h : IsCsr c wgt rows) :
    (sortCsr T wgt wlt c).All (fun r => ∃ rows', IsCsr r wgt rows' ∧ rows'.length = rows.length ∧
      r.n = c.n ∧ r.m = c.m ∧ r.nrows = c.nrows ∧ r.ncols = c.ncols ∧ r.offsets = c.offsets ∧
      (wgt = false → r.weights = c.weights) ∧
      ∀ (v : Nat) (l l' : List (Nat × W)), rows[v]? = some l → rows'[v]? = some l' →
        (l'.map Prod.fst).Perm (l.map Prod.fst) ∧ (l'.map Prod.fst).Pairwise (fun a b => ¬ b < a) ∧
        (wgt = true → l'.Perm l ∧ l'.Pairwise (fun a b => ¬ pairLt wlt b a))) := by
  unfold sortCsr
  refine R.All.bind (P := IsSort (fun a b : Nat => a < b)) (R.All.choose (fun _ h => h)) (fun srtL hL => ?_)
  refine R.All.bind (P := IsSort (pairLt wlt)) (R.All.choose (fun _ h => h)) (fun srtP hP => ?_)
  refine R.All.bind (P := OmpDyn c.n T) (R.All.choose (fun _ h => h)) (fun its hits => ?_)
  refine R.All.bind (P := fun st => (∃ rows', IsCsr { c with endpoints := st.1, weights := st.2 } wgt rows' ∧
      rows'.length = rows.length ∧ ∀ v, rows'[v]? = rows[v]?.map (sortedRow wgt srtL srtP v)) ∧ (wgt = false → st.2 = c.weights))
    (R.All.par (fun sched hs => ?_)) (fun st hst => ?_)
  · have hp : sched.Perm (List.range c.n) := hs.perm.trans hits.all
    have hlt : ∀ v, v ∈ sched ↔ v < rows.length := fun v => by rw [hp.mem_iff, List.mem_range, h.n]
    obtain ⟨st', h1, rows', h2, h3, h4⟩ := run_sort (wgt := wgt) hL hP sched c rows h (hp.nodup_iff.mpr List.nodup_range)
      (fun v hv => (hlt v).mp hv)
    refine ⟨st', h1, ⟨rows', h2, h3, ?_⟩, ?_⟩
    · intro v
      rw [h4 v]
      split
      · rfl
      · rename_i hv
        rw [hlt] at hv
        rw [List.getElem?_eq_none (by omega)]; rfl
    · intro hw
      subst hw
      have key : ∀ (sched : List Nat) (st st' : List Nat × List W),
          runActs (sortRow false srtL srtP c.offsets) sched st = .ok st' → st'.2 = st.2 := by
        intro sched
        induction sched with
        | nil => intro st st' h; injection h with h; rw [h]
        | cons v sched ih =>
          intro st st' h
          rw [runActs] at h
          cases hs : sortRow false srtL srtP c.offsets v st with
          | error f => rw [hs] at h; cases h
          | ok st1 =>
            rw [hs, ok_bind] at h
            rw [ih st1 st' h]
            unfold sortRow at hs
            cases h1 : load c.offsets v with
            | error f => rw [h1] at hs; cases hs
            | ok s =>
              cases h2 : load c.offsets (v+1) with
              | error f => rw [h1, ok_bind, h2] at hs; cases hs
              | ok e =>
                cases h3 : loadRange st.1 s e with
                | error f => simp [h1, h2, h3] at hs
                | ok us => simp [h1, h2, h3] at hs; rw [← hs]
      exact key _ _ _ h1
  obtain ⟨⟨rows', h2, h3, h4⟩, h5⟩ := hst
  refine R.All.pure ⟨rows', h2, h3, rfl, rfl, rfl, rfl, rfl, h5, ?_⟩
  intro v l l' hl hl'
  rw [h4 v, hl, Option.map_some] at hl'
  injection hl' with hl'
  subst hl'
  cases hw : wgt with
  | true =>
    have := hP v l
    simp only [sortedRow, if_true]
    refine ⟨this.1.map _, ?_, fun _ => this⟩
    rw [List.pairwise_map]
    refine this.2.imp (fun hab hlt => hab (.inl hlt))
  | false =>
    have := hL v (l.map Prod.fst)
    rw [sortedRow_fst hL]
    exact ⟨this.1, this.2, fun hc => by cases hc⟩

end Pigo
