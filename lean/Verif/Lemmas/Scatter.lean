import Verif.Lemmas.Alloc

/-!
# The scatter loop of `convert_coo_`

Whatever the interleaving, the iterations capture their positions in some order `C`, and the entry arrays
end up grouped by row, each row in the order `C`.
-/

namespace Pigo

variable {W : Type}

/-- The captures of a schedule. -/
def caps : List ScatAct → List Nat
  | [] => []
  | .cap e :: s => e :: caps s
  | _ :: s => caps s

/-- The endpoint stores of a schedule. -/
def wrs : List ScatAct → List Nat
  | [] => []
  | .wr e :: s => e :: wrs s
  | _ :: s => wrs s

/-- The weight stores of a schedule. -/
def wws : List ScatAct → List Nat
  | [] => []
  | .ww e :: s => e :: wws s
  | _ :: s => wws s

/-- Every store comes after the capture of its iteration (captures in `D` already happened). -/
def Guarded : List Nat → List ScatAct → Prop
  | _, [] => True
  | D, .cap e :: s => Guarded (e :: D) s
  | D, .wr e :: s => e ∈ D ∧ Guarded D s
  | D, .ww e :: s => e ∈ D ∧ Guarded D s

theorem Guarded.mono {D D' : List Nat} {s : List ScatAct} (h : Guarded D s) (hd : ∀ e ∈ D, e ∈ D') : Guarded D' s := by
  induction s generalizing D D' with
  | nil => trivial
  | cons a s ih =>
    cases a with
    | cap e =>
      exact ih (D' := e :: D') h (fun x hx => by
        rcases List.mem_cons.mp hx with rfl | hx
        · exact List.mem_cons_self ..
        · exact List.mem_cons_of_mem _ (hd x hx))
    | wr e => exact ⟨hd e h.1, ih h.2 hd⟩
    | ww e => exact ⟨hd e h.1, ih h.2 hd⟩

theorem Guarded.interleave {ls : List (List ScatAct)} {s : List ScatAct} (h : Interleave ls s) :
    ∀ D, (∀ l ∈ ls, Guarded D l) → Guarded D s := by
  induction h with
  | done h => intro D _; trivial
  | @step ls i a l s hi t ih =>
    intro D hg
    have hmem : (a :: l) ∈ ls := List.mem_of_getElem? hi
    have ha := hg _ hmem
    have key : ∀ D', (∀ e ∈ D, e ∈ D') → Guarded D' l → ∀ l' ∈ ls.set i l, Guarded D' l' := by
      intro D' hd hl l' hl'
      rcases List.mem_or_eq_of_mem_set hl' with h' | h'
      · exact (hg l' h').mono hd
      · rw [h']; exact hl
    cases a with
    | cap e => exact ih (e :: D) (key _ (fun x hx => List.mem_cons_of_mem _ hx) ha)
    | wr e => exact ⟨ha.1, ih D (key _ (fun x hx => hx) ha.2)⟩
    | ww e => exact ⟨ha.1, ih D (key _ (fun x hx => hx) ha.2)⟩

theorem Guarded.append {D : List Nat} {s t : List ScatAct} (h1 : Guarded D s) (h2 : Guarded D t) : Guarded D (s ++ t) := by
  induction s generalizing D with
  | nil => exact h2
  | cons a s ih =>
    cases a with
    | cap e => exact ih (D := e :: D) h1 (h2.mono (fun x hx => List.mem_cons_of_mem _ hx))
    | wr e => exact ⟨h1.1, ih h1.2 h2⟩
    | ww e => exact ⟨h1.1, ih h1.2 h2⟩

theorem scatIter_guarded (wgt : Bool) (e : Nat) : Guarded [] (scatIter wgt e) := by
  cases wgt <;> simp [scatIter, Guarded]

theorem scatIters_guarded (wgt : Bool) (es : List Nat) : Guarded [] (es.flatMap (scatIter wgt)) := by
  induction es with
  | nil => trivial
  | cons e es ih => rw [List.flatMap_cons]; exact (scatIter_guarded wgt e).append ih

/-! ### Perm of the projections -/

theorem caps_eq (s : List ScatAct) : caps s = s.filterMap (fun a => match a with | .cap e => some e | _ => none) := by
  induction s with
  | nil => rfl
  | cons a s ih => cases a <;> simp [caps, ih]

theorem wrs_eq (s : List ScatAct) : wrs s = s.filterMap (fun a => match a with | .wr e => some e | _ => none) := by
  induction s with
  | nil => rfl
  | cons a s ih => cases a <;> simp [wrs, ih]

theorem wws_eq (s : List ScatAct) : wws s = s.filterMap (fun a => match a with | .ww e => some e | _ => none) := by
  induction s with
  | nil => rfl
  | cons a s ih => cases a <;> simp [wws, ih]

theorem caps_perm {s t : List ScatAct} (h : s.Perm t) : (caps s).Perm (caps t) := by
  rw [caps_eq, caps_eq]; exact h.filterMap _

theorem wrs_perm {s t : List ScatAct} (h : s.Perm t) : (wrs s).Perm (wrs t) := by
  rw [wrs_eq, wrs_eq]; exact h.filterMap _

theorem wws_perm {s t : List ScatAct} (h : s.Perm t) : (wws s).Perm (wws t) := by
  rw [wws_eq, wws_eq]; exact h.filterMap _

theorem caps_append (s t : List ScatAct) : caps (s ++ t) = caps s ++ caps t := by
  simp [caps_eq]
theorem wrs_append (s t : List ScatAct) : wrs (s ++ t) = wrs s ++ wrs t := by
  simp [wrs_eq]
theorem wws_append (s t : List ScatAct) : wws (s ++ t) = wws s ++ wws t := by
  simp [wws_eq]

theorem caps_iters (wgt : Bool) (es : List Nat) : caps (es.flatMap (scatIter wgt)) = es := by
  induction es with
  | nil => rfl
  | cons e es ih =>
    rw [List.flatMap_cons, caps_append, ih]
    cases wgt <;> simp [scatIter, caps]

theorem wrs_iters (wgt : Bool) (es : List Nat) : wrs (es.flatMap (scatIter wgt)) = es := by
  induction es with
  | nil => rfl
  | cons e es ih =>
    rw [List.flatMap_cons, wrs_append, ih]
    cases wgt <;> simp [scatIter, wrs]

theorem wws_iters (es : List Nat) : wws (es.flatMap (scatIter true)) = es := by
  induction es with
  | nil => rfl
  | cons e es ih => rw [List.flatMap_cons, wws_append, ih]; simp [scatIter, wws]

theorem wws_iters_false (es : List Nat) : wws (es.flatMap (scatIter false)) = [] := by
  induction es with
  | nil => rfl
  | cons e es ih => rw [List.flatMap_cons, wws_append, ih]; simp [scatIter, wws]

theorem flatten_iters (wgt : Bool) (its : List (List Nat)) :
    (its.map (fun es => es.flatMap (scatIter wgt))).flatten = its.flatten.flatMap (scatIter wgt) := by
  induction its with
  | nil => rfl
  | cons a its ih => simp [ih]

/-! ### Rows -/

/-- The iterations of `C` whose source is `v`, in the order of `C`. -/
def byRow (xe : Nat → Nat) (C : List Nat) (v : Nat) : List Nat := C.filter (fun e => xe e == v)

/-- The iterations of `C` grouped by source. -/
def grouped (xe : Nat → Nat) (C : List Nat) (n : Nat) : List Nat := (List.range n).flatMap (byRow xe C)

theorem byRow_append (xe : Nat → Nat) (C D : List Nat) (v : Nat) :
    byRow xe (C ++ D) v = byRow xe C v ++ byRow xe D v := by simp [byRow]

theorem byRow_cons_self (xe : Nat → Nat) (e : Nat) (C : List Nat) : byRow xe (e :: C) (xe e) = e :: byRow xe C (xe e) := by
  simp [byRow]

theorem byRow_cons_ne (xe : Nat → Nat) (e : Nat) (C : List Nat) {v : Nat} (h : xe e ≠ v) :
    byRow xe (e :: C) v = byRow xe C v := by
  simp [byRow, h]

theorem mem_byRow {xe : Nat → Nat} {C : List Nat} {v e : Nat} : e ∈ byRow xe C v ↔ e ∈ C ∧ xe e = v := by
  simp [byRow]

/-- The degrees. -/
def degsOf (xe : Nat → Nat) (C : List Nat) (n : Nat) : List Nat := alloc (fun v => (byRow xe C v).length) n

/-- The slot of iteration `e`. -/
def slotOf (xe : Nat → Nat) (C : List Nat) (n e : Nat) : Nat :=
  ((degsOf xe C n).take (xe e)).sum + (byRow xe C (xe e)).idxOf e

theorem take_succ_sum (l : List Nat) (v d : Nat) (h : l[v]? = some d) : (l.take (v+1)).sum = (l.take v).sum + d := by
  obtain ⟨hv, rfl⟩ := List.getElem?_eq_some_iff.mp h
  rw [List.take_succ_eq_append_getElem hv, List.sum_append]; simp

theorem degs_take (xe : Nat → Nat) (C : List Nat) {n k : Nat} (hk : k ≤ n) :
    ((degsOf xe C n).take k).sum = ((List.range k).flatMap (byRow xe C)).length := by
  rw [degsOf, alloc, ← List.map_take, List.take_range, Nat.min_eq_left hk, List.length_flatMap]

theorem slot_eq_idxOf (xe : Nat → Nat) (C : List Nat) (n e : Nat) (hx : xe e < n) (he : e ∈ C) :
    slotOf xe C n e = (grouped xe C n).idxOf e := by
  obtain ⟨k, rfl⟩ : ∃ k, n = xe e + 1 + k := ⟨n - (xe e + 1), by omega⟩
  have hsplit : List.range (xe e + 1 + k) = List.range (xe e) ++ (xe e :: (List.range' (xe e + 1) k)) := by
    rw [List.range_eq_range', List.range_eq_range', Nat.add_assoc, ← List.range'_append_1, Nat.add_comm 1 k,
      List.range'_succ]
    simp
  rw [grouped, hsplit, List.flatMap_append, List.flatMap_cons]
  rw [List.idxOf_append, if_neg (by
    simp only [List.mem_flatMap, List.mem_range, not_exists, not_and]
    intro v hv hm
    have := (mem_byRow.mp hm).2
    omega), List.idxOf_append, if_pos (mem_byRow.mpr ⟨he, rfl⟩), slotOf, degs_take xe C (by omega), Nat.add_comm]

theorem grouped_perm (xe : Nat → Nat) (C : List Nat) (n : Nat) (h : ∀ e ∈ C, xe e < n) : (grouped xe C n).Perm C := by
  induction n generalizing C with
  | zero =>
    cases C with
    | nil => simp [grouped]
    | cons e C => exact absurd (h e (by simp)) (by omega)
  | succ n ih =>
    rw [grouped, List.range_succ, List.flatMap_append, List.flatMap_singleton]
    have e1 : (List.range n).flatMap (byRow xe C) = grouped xe (C.filter (fun e => !(xe e == n))) n := by
      rw [grouped, List.flatMap_def, List.flatMap_def]
      congr 1
      apply List.map_congr_left
      intro v hv
      rw [byRow, byRow, List.filter_filter]
      apply List.filter_congr
      intro e _
      have := List.mem_range.mp hv
      by_cases h1 : xe e = v
      · have : ¬ v = n := by omega
        simp [h1, this]
      · simp [h1]
    rw [e1]
    refine ((ih _ ?_).append_right _).trans ?_
    · intro e he
      rw [List.mem_filter] at he
      have h1 := h e he.1
      have h2 : ¬ xe e = n := by simpa using he.2
      omega
    · rw [byRow]
      exact List.perm_append_comm.trans (List.filter_append_perm _ C)

theorem degs_sum (xe : Nat → Nat) (C : List Nat) (n : Nat) (h : ∀ e ∈ C, xe e < n) : (degsOf xe C n).sum = C.length := by
  rw [← (grouped_perm xe C n h).length_eq, grouped, ← degs_take xe C (Nat.le_refl n), List.take_of_length_le (by simp [degsOf])]

theorem degsOf_perm (xe : Nat → Nat) {C D : List Nat} (h : C.Perm D) (n : Nat) : degsOf xe C n = degsOf xe D n := by
  apply alloc_congr
  intro v _
  exact (h.filter _).length_eq

theorem idxOf_map_blockActs {α : Type} (P : List Nat) (f : Nat → α) (h : P.Nodup) (p : Nat) :
    P.map (fun e => (p + P.idxOf e, f e)) = blockActs p (P.map f) := by
  induction P generalizing p with
  | nil => rfl
  | cons a P ih =>
    rw [List.nodup_cons] at h
    simp only [List.map_cons, blockActs, List.idxOf_cons_self, Nat.add_zero]
    congr 1
    rw [← ih h.2]
    apply List.map_congr_left
    intro e he
    have : a ≠ e := fun e' => h.1 (e' ▸ he)
    rw [List.idxOf_cons, show (a == e) = false by simpa using this, cond_false]
    congr 1
    omega

/-! ### Running the loop -/

theorem run_scatter {x y : List Nat} {w : List W} {xe ye : Nat → Nat} {we : Nat → W} {C : List Nat} {n : Nat}
    (hC : C.Nodup) (hx : ∀ e ∈ C, x[e]? = some (xe e)) (hn : ∀ e ∈ C, xe e < n) (hy : ∀ e ∈ C, y[e]? = some (ye e))
    (rest : List ScatAct) : ∀ (D : List Nat) (pos : Nat → Option Nat) (ep ep' : List Nat) (ws ws' : List W),
    D ++ caps rest = C → Guarded D rest → (∀ e ∈ wws rest, w[e]? = some (we e)) →
    (∀ e ∈ D, pos e = some ((byRow xe C (xe e)).length - (byRow xe C (xe e)).idxOf e)) →
    runActs storeAct ((wrs rest).map (fun e => (slotOf xe C n e, ye e))) ep = .ok ep' →
    runActs storeAct ((wws rest).map (fun e => (slotOf xe C n e, we e))) ws = .ok ws' →
    ∃ st', runActs (scatStep x y w (offsetsOf (degsOf xe C n))) rest
      ⟨alloc (fun v => (byRow xe (caps rest) v).length) n, pos, ep, ws⟩ = .ok st' ∧ st'.endpoints = ep' ∧ st'.weights = ws' := by
  have slot : ∀ (D : List Nat) (s : Scatter W) (e : Nat), e ∈ D → (∀ e ∈ D, e ∈ C) →
      s.pos e = some ((byRow xe C (xe e)).length - (byRow xe C (xe e)).idxOf e) →
      scatSlot x (offsetsOf (degsOf xe C n)) s e = .ok (slotOf xe C n e) := by
    intro D s e he hDC hp
    have heC := hDC e he
    have hlt := hn e heC
    have hdeg : (degsOf xe C n)[xe e]? = some (byRow xe C (xe e)).length := alloc_getElem? _ hlt
    have hidx : (byRow xe C (xe e)).idxOf e < (byRow xe C (xe e)).length :=
      List.idxOf_lt_length_iff.mpr (mem_byRow.mpr ⟨heC, rfl⟩)
    have hoff : load (offsetsOf (degsOf xe C n)) (xe e + 1) =
        .ok (((degsOf xe C n).take (xe e)).sum + (byRow xe C (xe e)).length) := by
      rw [← take_succ_sum _ _ _ hdeg]
      exact load_ok (offsetsOf_getElem? _ (by simp [degsOf]; omega))
    unfold scatSlot
    rw [load_ok (hx e heC), ok_bind, hoff, ok_bind, hp]
    simp only
    rw [if_pos (by omega)]
    congr 1
    rw [slotOf]
    omega
  induction rest with
  | nil =>
    intro D pos ep ep' ws ws' _ _ _ _ h1 h2
    simp only [wrs, wws, List.map_nil, runActs] at h1 h2
    injection h1 with h1
    injection h2 with h2
    exact ⟨_, rfl, h1, h2⟩
  | cons a rest ih =>
    intro D pos ep ep' ws ws' hD hG hw hpos h1 h2
    have hDC : ∀ e ∈ D, e ∈ C := fun e he => hD ▸ List.mem_append_left _ he
    cases a with
    | cap e =>
      have heC : e ∈ C := by rw [← hD]; simp [caps]
      have heD : e ∉ D := by
        rw [← hD, caps] at hC
        exact fun h => (List.nodup_append.mp hC).2.2 e h e (List.mem_cons_self ..) rfl
      have hlt := hn e heC
      have hrow : byRow xe C (xe e) = byRow xe D (xe e) ++ e :: byRow xe (caps rest) (xe e) := by
        rw [← hD, caps, byRow_append, byRow_cons_self]
      have hidx : (byRow xe C (xe e)).idxOf e = (byRow xe D (xe e)).length := by
        rw [hrow, List.idxOf_append, if_neg (fun h => heD (mem_byRow.mp h).1), List.idxOf_cons_self, Nat.zero_add]
      simp only [runActs, scatStep, load_ok (hx e heC), ok_bind, load_alloc _ hlt, caps, byRow_cons_self, List.length_cons]
      rw [if_neg (by omega), store_alloc _ hlt, ok_bind, ok_bind]
      have hst : (alloc (fun k => if k = xe e then (byRow xe (caps rest) (xe e)).length + 1 - 1
          else (byRow xe (e :: caps rest) k).length) n) = alloc (fun v => (byRow xe (caps rest) v).length) n := by
        apply alloc_congr
        intro v _
        by_cases hv : v = xe e
        · rw [if_pos hv, hv]; omega
        · rw [if_neg hv, byRow_cons_ne _ _ _ (Ne.symm hv)]
      rw [hst]
      refine ih (D ++ [e]) _ ep ep' ws ws' (by rw [← hD, caps]; simp) (Guarded.mono (D := e :: D) hG ?_) hw ?_ h1 h2
      · intro x hx
        rcases List.mem_cons.mp hx with rfl | hx <;> simp_all
      · intro e' he'
        by_cases h : e' = e
        · subst h
          simp only [if_pos]
          rw [hidx, hrow, List.length_append, List.length_cons]
          congr 1
          omega
        · simp only [if_neg h]
          refine hpos e' ?_
          rcases List.mem_append.mp he' with h' | h'
          · exact h'
          · exact absurd (List.mem_singleton.mp h') h
    | wr e =>
      have heD := hG.1
      simp only [runActs, scatStep, load_ok (hy e (hDC e heD)), ok_bind]
      rw [slot D _ e heD hDC (hpos e heD), ok_bind]
      simp only [wrs, List.map_cons, runActs, storeAct] at h1
      cases hs : store ep (slotOf xe C n e) (ye e) with
      | error f => rw [hs] at h1; cases h1
      | ok ep1 =>
        rw [hs, ok_bind] at h1
        simp only [ok_bind]
        exact ih D pos ep1 ep' ws ws' hD hG.2 hw hpos h1 h2
    | ww e =>
      have heD := hG.1
      simp only [runActs, scatStep, load_ok (hw e (by simp [wws])), ok_bind]
      rw [slot D _ e heD hDC (hpos e heD), ok_bind]
      simp only [wws, List.map_cons, runActs, storeAct] at h2
      cases hs : store ws (slotOf xe C n e) (we e) with
      | error f => rw [hs] at h2; cases h2
      | ok ws1 =>
        rw [hs, ok_bind] at h2
        simp only [ok_bind]
        exact ih D pos ep ep' ws1 ws' hD hG.2 (fun e he => hw e (by simp [wws, he])) hpos h1 h2

end Pigo
