import Verif.Lemmas.Scatter
import Verif.Spec.Csr

/-!
# A CSR as a list of rows
-/

namespace Pigo

variable {W : Type}

/-- `c` is the CSR with the rows `rows` of (endpoint, weight) pairs. -/
structure IsCsr (c : Csr W) (wgt : Bool) (rows : List (List (Nat × W))) : Prop where
  n : c.n = rows.length
  m : c.m = rows.flatten.length
  offsets : c.offsets = offsetsOf (rows.map List.length)
  endpoints : c.endpoints = rows.flatten.map Prod.fst
  weights : wgt = true → c.weights = rows.flatten.map Prod.snd

theorem take_sum_length (rows : List (List (Nat × W))) (v : Nat) :
    ((rows.map List.length).take v).sum = (rows.take v).flatten.length := by
  rw [← List.map_take, List.length_flatten]

theorem IsCsr.off {c : Csr W} {wgt : Bool} {rows : List (List (Nat × W))} (h : IsCsr c wgt rows) {v : Nat}
    (hv : v ≤ rows.length) : Spec.off c v = (rows.take v).flatten.length := by
  rw [Spec.off, h.offsets, List.getD_eq_getElem?_getD, offsetsOf_getElem? _ (by simpa using hv), take_sum_length]
  rfl

theorem flatten_take_succ {α : Type} (rows : List (List α)) {v : Nat} {r : List α} (h : rows[v]? = some r) :
    (rows.take (v + 1)).flatten = (rows.take v).flatten ++ r := by
  obtain ⟨hv, rfl⟩ := List.getElem?_eq_some_iff.mp h
  rw [List.take_succ_eq_append_getElem hv, List.flatten_append]
  simp

theorem flatten_slice {α : Type} (rows : List (List α)) {v : Nat} {r : List α} (h : rows[v]? = some r) :
    (rows.flatten.drop (rows.take v).flatten.length).take r.length = r := by
  obtain ⟨hv, rfl⟩ := List.getElem?_eq_some_iff.mp h
  have e : rows.flatten = (rows.take v).flatten ++ (rows[v] ++ (rows.drop (v + 1)).flatten) := by
    rw [← List.flatten_cons, ← List.drop_eq_getElem_cons hv, ← List.flatten_append, List.take_append_drop]
  rw [e, List.drop_left, List.take_left]

theorem IsCsr.off_succ {c : Csr W} {wgt : Bool} {rows : List (List (Nat × W))} (h : IsCsr c wgt rows) {v : Nat}
    {r : List (Nat × W)} (hr : rows[v]? = some r) : Spec.off c (v + 1) = Spec.off c v + r.length := by
  have hv := (List.getElem?_eq_some_iff.mp hr).1
  rw [h.off hv, h.off (Nat.le_of_lt hv), flatten_take_succ rows hr, List.length_append]

theorem IsCsr.row {c : Csr W} {wgt : Bool} {rows : List (List (Nat × W))} (h : IsCsr c wgt rows) {v : Nat}
    {r : List (Nat × W)} (hr : rows[v]? = some r) : Spec.row c v = r.map Prod.fst := by
  have hv := (List.getElem?_eq_some_iff.mp hr).1
  rw [Spec.row, h.off_succ hr, Nat.add_sub_cancel_left, h.off (Nat.le_of_lt hv), h.endpoints, ← List.map_drop, ← List.map_take,
    flatten_slice rows hr]

theorem IsCsr.rowWeights {c : Csr W} {wgt : Bool} {rows : List (List (Nat × W))} (h : IsCsr c wgt rows) (hw : wgt = true)
    {v : Nat} {r : List (Nat × W)} (hr : rows[v]? = some r) : Spec.rowWeights c v = r.map Prod.snd := by
  have hv := (List.getElem?_eq_some_iff.mp hr).1
  rw [Spec.rowWeights, h.off_succ hr, Nat.add_sub_cancel_left, h.off (Nat.le_of_lt hv), h.weights hw, ← List.map_drop,
    ← List.map_take, flatten_slice rows hr]

theorem IsCsr.valid {c : Csr W} {wgt : Bool} {rows : List (List (Nat × W))} (h : IsCsr c wgt rows) : Spec.ValidCsr c wgt where
  offsets := by rw [h.offsets, h.n]; simp
  first := by rw [h.off (Nat.zero_le _)]; simp
  mono := by
    intro v hv
    rw [h.n] at hv
    rw [h.off_succ (List.getElem?_eq_getElem hv)]
    omega
  last := by rw [h.n, h.off (Nat.le_refl _), h.m, List.take_length]
  endpoints := by rw [h.endpoints, h.m, List.length_map]
  weights := fun hw => by rw [h.weights hw, h.m, List.length_map]

/-- Cut a list at the given offsets. -/
def cutAt {α : Type} (l : List α) (off : Nat → Nat) (n : Nat) : List (List α) :=
  (List.range n).map (fun v => (l.drop (off v)).take (off (v + 1) - off v))

theorem cutAt_take {α : Type} (l : List α) (off : Nat → Nat) (n : Nat) (h0 : off 0 = 0) (hm : ∀ v, v < n → off v ≤ off (v + 1))
    {k : Nat} (hk : k ≤ n) : ((cutAt l off n).take k).flatten = l.take (off k) := by
  induction k with
  | zero => simp [h0]
  | succ k ih =>
    have hget : (cutAt l off n)[k]? = some ((l.drop (off k)).take (off (k + 1) - off k)) := by
      simp [cutAt, show k < n by omega]
    rw [flatten_take_succ _ hget, ih (by omega)]
    have := hm k (by omega)
    rw [show off (k+1) = off k + (off (k + 1) - off k) by omega, List.take_add]
    congr 2
    omega

theorem off_le_last {off : Nat → Nat} {n : Nat} (hm : ∀ v, v < n → off v ≤ off (v + 1)) {v : Nat} (hv : v ≤ n) : off v ≤ off n := by
  induction n with
  | zero => rw [show v = 0 by omega]; exact Nat.le_refl _
  | succ n ih =>
    by_cases h : v = n + 1
    · rw [h]; exact Nat.le_refl _
    · exact Nat.le_trans (ih (fun v hv => hm v (by omega)) (by omega)) (hm n (by omega))

/-- The rows of a valid CSR (`d` pads the weights if there are none). -/
def rowsOfCsr (wgt : Bool) (d : W) (c : Csr W) : List (List (Nat × W)) :=
  cutAt (c.endpoints.zip (if wgt then c.weights else List.replicate c.m d)) (Spec.off c) c.n

theorem isCsr_of_valid {c : Csr W} {wgt : Bool} (h : Spec.ValidCsr c wgt) (d : W) : IsCsr c wgt (rowsOfCsr wgt d c) := by
  have hlen : (c.endpoints.zip (if wgt then c.weights else List.replicate c.m d)).length = c.m := by
    rw [List.length_zip, h.endpoints]
    cases wgt with
    | true => simp [h.weights rfl]
    | false => simp
  have hl : (rowsOfCsr wgt d c).length = c.n := by simp [rowsOfCsr, cutAt]
  have htake : ∀ k, k ≤ c.n → ((rowsOfCsr wgt d c).take k).flatten = (c.endpoints.zip (if wgt then c.weights else List.replicate c.m d)).take (Spec.off c k) :=
    fun k hk => cutAt_take _ _ _ h.first h.mono hk
  have hflat : (rowsOfCsr wgt d c).flatten = c.endpoints.zip (if wgt then c.weights else List.replicate c.m d) := by
    have := htake c.n (Nat.le_refl _)
    rwa [h.last, List.take_of_length_le (by rw [hl]; exact Nat.le_refl _), List.take_of_length_le (by rw [hlen]; exact Nat.le_refl _)] at this
  refine ⟨hl.symm, by rw [hflat, hlen], ?_, ?_, ?_⟩
  · apply List.ext_getElem?
    intro v
    by_cases hv : v ≤ c.n
    · rw [offsetsOf_getElem? _ (by simpa [hl] using hv), take_sum_length, htake v hv, List.length_take, hlen]
      have : Spec.off c v ≤ c.m := by rw [← h.last]; exact off_le_last h.mono hv
      rw [Nat.min_eq_left this, Spec.off, List.getD_eq_getElem?_getD, List.getElem?_eq_getElem (by rw [h.offsets]; omega)]
      rfl
    · rw [List.getElem?_eq_none (by rw [h.offsets]; omega), List.getElem?_eq_none (by simp [hl]; omega)]
  · rw [hflat, List.map_fst_zip]
    rw [h.endpoints]
    cases wgt with
    | true => simp [h.weights rfl]
    | false => simp
  · intro hw
    subst hw
    rw [hflat]
    simp only [if_true]
    rw [List.map_snd_zip]
    rw [h.endpoints, h.weights rfl]
    exact Nat.le_refl _

end Pigo
