import Verif.Model.Sizes
import Verif.Props.Graph
import Verif.Lemmas.ThrowPost

/-!
# C95: sizes set by the user and sizes reported
-/

namespace Pigo

variable {W : Type}

/-- **C95 (`set_n`)**: after `set_n(k)` with `k` above every label, the CSR built from the COO has `k` rows: row `v` has the entries of `v`, in particular the rows
that were added are empty; the stated rows and columns are not changed. -/
theorem C95_set_n (lw ow T : Nat) (hT : 0 < T) (wgt : Bool) (c : Coo W) (es : List (Nat × Nat × W)) (hc : Holds c wgt es) (k : Nat)
    (hlab : ∀ e ∈ es, e.1 < k) (hm : c.m < 2 ^ ow) (hn : Spec.OffsetsFit lw k) :
    (convertCoo lw ow T wgt (setN c k)).All (fun r => Spec.ValidCsr r wgt ∧ r.n = k ∧ r.m = c.m ∧ r.nrows = c.nrows ∧ r.ncols = c.ncols ∧
      (∀ v, v < k → (Spec.row r v).Perm ((es.filter (fun e => e.1 == v)).map (fun e => e.2.1))) ∧
      ∀ v, v < k → (∀ e ∈ es, e.1 ≠ v) → Spec.row r v = []) := by
  have hc' : Holds (setN c k) wgt es := ⟨hc.m, hc.x, hc.y, hc.w⟩
  intro o ho
  obtain ⟨r, rfl, h1, h2, h3, h4, h5, _⟩ := C24_valid_csr lw ow T hT wgt (setN c k) es hc' hlab hm hn o ho
  obtain ⟨r', hr', _, h6⟩ := C25_rows lw ow T hT wgt (setN c k) es hc' hlab hm hn _ ho
  injection hr' with hr'
  subst hr'
  refine ⟨r, rfl, h1, h2, h3, h4, h5, h6, ?_⟩
  intro v hv hne
  have := h6 v hv
  rw [List.filter_eq_nil_iff.mpr (by intro e he; simpa using hne e he)] at this
  exact this.eq_nil

/-- **C95 (`set_nrows`, `set_ncols`)**: the CSR built afterwards reports the numbers set and has otherwise the `n()`, `m()` and rows of the unchanged COO; the entries
and the other numbers of the COO are not touched. -/
theorem C95_set_rows_cols (lw ow T : Nat) (hT : 0 < T) (wgt : Bool) (c : Coo W) (es : List (Nat × Nat × W)) (hc : Holds c wgt es) (a b : Nat)
    (hlab : ∀ e ∈ es, e.1 < c.n) (hm : c.m < 2 ^ ow) (hn : Spec.OffsetsFit lw c.n) :
    Holds (setNcols (setNrows c a) b) wgt es ∧ (setNcols (setNrows c a) b).n = c.n ∧
    (setNrows c a).ncols = c.ncols ∧ (setNcols c b).nrows = c.nrows ∧
    (convertCoo lw ow T wgt (setNcols (setNrows c a) b)).All (fun r => Spec.ValidCsr r wgt ∧ r.n = c.n ∧ r.m = c.m ∧ r.nrows = a ∧ r.ncols = b ∧
      ∀ v, v < c.n → (Spec.row r v).Perm ((es.filter (fun e => e.1 == v)).map (fun e => e.2.1))) := by
  have hc' : Holds (setNcols (setNrows c a) b) wgt es := ⟨hc.m, hc.x, hc.y, hc.w⟩
  refine ⟨hc', rfl, rfl, rfl, ?_⟩
  intro o ho
  obtain ⟨r, rfl, h1, h2, h3, h4, h5, _⟩ := C24_valid_csr lw ow T hT wgt _ es hc' hlab hm hn o ho
  obtain ⟨r', hr', _, h6⟩ := C25_rows lw ow T hT wgt _ es hc' hlab hm hn _ ho
  injection hr' with hr'
  subst hr'
  exact ⟨r, rfl, h1, h2, h3, h4, h5, h6⟩

theorem runInc {ow : Nat} {x : List Nat} {l : List Nat} {d d' : List Nat} (h : runActs (incAct ow x) l d = .ok d') :
    d'.length = d.length ∧ ∀ e ∈ l, ∃ v, x[e]? = some v ∧ v < d.length := by
  induction l generalizing d with
  | nil => cases h; exact ⟨rfl, by simp⟩
  | cons e l ih =>
    unfold runActs at h
    cases h1 : incAct ow x e d with
    | error f => rw [h1] at h; cases h
    | ok b =>
      rw [h1] at h
      have key : b.length = d.length ∧ ∃ v, x[e]? = some v ∧ v < d.length := by
        unfold incAct load at h1
        cases hx : x[e]? with
        | none => rw [hx] at h1; cases h1
        | some v =>
          simp only [hx] at h1
          cases hd : d[v]? with
          | none => simp [hd, bind, Except.bind] at h1
          | some a =>
            have hv : v < d.length := by
              rcases Nat.lt_or_ge v d.length with h | h
              · exact h
              · rw [List.getElem?_eq_none h] at hd; cases hd
            simp only [hd, bind, Except.bind] at h1
            split at h1
            · exact ⟨store_length h1, v, rfl, hv⟩
            · cases h1
      obtain ⟨hl, v, hv, hlt⟩ := key
      obtain ⟨h2, h3⟩ := ih h
      refine ⟨by rw [h2, hl], ?_⟩
      intro e' he'
      rcases List.mem_cons.mp he' with rfl | he'
      · exact ⟨v, hv, hlt⟩
      · obtain ⟨v', hv', hlt'⟩ := h3 e' he'
        exact ⟨v', hv', by rw [← hl]; exact hlt'⟩

/-- **C95 is violated (`set_n`)**: after `set_n(k)` with `k` at most some label, the conversion does not check it: no execution of it is defined, and none throws. -/
theorem C95_set_n_violated (lw ow T : Nat) (wgt : Bool) (c : Coo W) (k e v : Nat) (he : e < c.m) (hx : c.x[e]? = some v) (hv : k ≤ v) :
    ∀ o, (convertCoo lw ow T wgt (setN c k)).Out o → ∃ f, o = .error f ∧ ¬ Thrown f := by
  intro o ho
  cases o with
  | error f => exact ⟨f, rfl, (R.Calm.convertCoo lw ow T wgt (setN c k)).calm f ho⟩
  | ok r =>
    exfalso
    obtain ⟨j, _, ho⟩ := bind_ok ho
    obtain ⟨ls, hls, _⟩ := bind_ok ho
    unfold countDegrees at hls
    obtain ⟨_, _, hls⟩ := bind_ok hls
    obtain ⟨_, _, hls⟩ := bind_ok hls
    obtain ⟨ja, _, hls⟩ := bind_ok hls
    obtain ⟨its, _, hls⟩ := bind_ok hls
    obtain ⟨all, h1, hls⟩ := bind_ok hls
    obtain ⟨its2, h2, hls⟩ := bind_ok hls
    obtain ⟨all2, h3, hls⟩ := bind_ok hls
    obtain ⟨s1, _, h1⟩ := h1
    have hlen := runActs_length h1.symm
    rw [alloc_length] at hlen
    obtain ⟨s2, hs2, h3⟩ := h3
    obtain ⟨its', hits', h2⟩ := h2
    injection h2 with h2
    subst h2
    have hmem : e ∈ s2 := by
      rw [hs2.perm.mem_iff, hits'.all.mem_iff]
      exact List.mem_range.mpr he
    obtain ⟨v', hv', hlt⟩ := (runInc h3.symm).2 e hmem
    have : v' = v := by
      have : c.x[e]? = some v' := hv'
      rw [hx] at this
      injection this with this
      exact this.symm
    subst this
    rw [hlen] at hlt
    exact Nat.lt_irrefl _ (Nat.lt_of_lt_of_le hlt hv)

/-- **C95 (sizes of DiGraph)**: when the ordinal type is at least as wide as the label type, `n()`, `m()`, `nrows()` and `ncols()` of a DiGraph are those of
the COO it was built from. -/
theorem C95_digraph (lw ow T : Nat) (hT : 0 < T) (wgt : Bool) (c : Coo W) (es : List (Nat × Nat × W)) (hc : Holds c wgt es)
    (hlab : ∀ e ∈ es, e.1 < c.n ∧ e.2.1 < c.n) (hm : c.m < 2 ^ ow) (hfit : Spec.OffsetsFit lw c.n) (hw : lw ≤ ow) (hn : c.n < 2 ^ lw) (hr : c.nrows < 2 ^ lw)
    (hcl : c.ncols < 2 ^ lw) :
    (fromCoo lw ow T wgt c).All (fun g => diN ow g = c.n ∧ diM ow g = c.m ∧ diNrows ow g = c.nrows ∧ diNcols ow g = c.ncols) := by
  have hp : 2 ^ lw ≤ 2 ^ ow := Nat.pow_le_pow_right (by decide) hw
  refine (twoGraphs_all hT hc hlab hm hfit).mono (fun g hg => ?_)
  obtain ⟨ho, hi⟩ := hg
  unfold diN diM diNrows diNcols toOrd
  rw [ho.1, ho.2.1, ho.2.2.1, ho.2.2.2.1]
  exact ⟨Nat.mod_eq_of_lt (by omega), Nat.mod_eq_of_lt hm, Nat.mod_eq_of_lt (by omega), Nat.mod_eq_of_lt (by omega)⟩

/-- **C95 is violated (sizes of DiGraph)**: with a narrower ordinal type and at least `2^ow` vertices, `n()` of every DiGraph built is wrong, although the graph itself
has the right number of vertices. -/
theorem C95_digraph_violated (lw ow T : Nat) (hT : 0 < T) (wgt : Bool) (c : Coo W) (es : List (Nat × Nat × W)) (hc : Holds c wgt es)
    (hlab : ∀ e ∈ es, e.1 < c.n ∧ e.2.1 < c.n) (hm : c.m < 2 ^ ow) (hfit : Spec.OffsetsFit lw c.n) (hn : 2 ^ ow ≤ c.n) :
    (fromCoo lw ow T wgt c).All (fun g => g.outG.n = c.n ∧ diN ow g < c.n) := by
  refine (twoGraphs_all hT hc hlab hm hfit).mono (fun g hg => ?_)
  obtain ⟨ho, hi⟩ := hg
  unfold diN toOrd
  rw [ho.1]
  exact ⟨rfl, Nat.lt_of_lt_of_le (Nat.mod_lt _ (Nat.pow_pos (by decide))) hn⟩

/-- C95 (sizes of Matrix) -/
theorem C95_matrix (lw ow T : Nat) (hT : 0 < T) (wgt : Bool) (c : Coo W) (es : List (Nat × Nat × W)) (hc : Holds c wgt es)
    (hlab : ∀ e ∈ es, e.1 < c.n ∧ e.2.1 < c.n) (hm : c.m < 2 ^ ow) (hfit : Spec.OffsetsFit lw c.n) (hw : lw ≤ ow) (hr : c.nrows < 2 ^ lw)
    (hcl : c.ncols < 2 ^ lw) : (matrixFromCoo lw ow T wgt c).All (fun a => matNrows ow a = c.nrows ∧ matNcols ow a = c.ncols) := by
  have hp : 2 ^ lw ≤ 2 ^ ow := Nat.pow_le_pow_right (by decide) hw
  refine (C56_matrix lw ow T hT wgt c es hc hlab hm hfit).mono (fun a ha => ?_)
  obtain ⟨_, _, _, _, _, _, h1, h2, _⟩ := ha
  have h1 : a.csr.nrows = c.nrows := h1
  have h2 : a.csr.ncols = c.ncols := h2
  unfold matNrows matNcols toOrd
  rw [h1, h2]
  exact ⟨Nat.mod_eq_of_lt (by omega), Nat.mod_eq_of_lt (by omega)⟩

/-- C95 is violated (sizes of Matrix) -/
theorem C95_matrix_violated (lw ow T : Nat) (hT : 0 < T) (wgt : Bool) (c : Coo W) (es : List (Nat × Nat × W)) (hc : Holds c wgt es)
    (hlab : ∀ e ∈ es, e.1 < c.n ∧ e.2.1 < c.n) (hm : c.m < 2 ^ ow) (hfit : Spec.OffsetsFit lw c.n) (hr : 2 ^ ow ≤ c.nrows) :
    (matrixFromCoo lw ow T wgt c).All (fun a => a.csr.nrows = c.nrows ∧ matNrows ow a < c.nrows) := by
  refine (C56_matrix lw ow T hT wgt c es hc hlab hm hfit).mono (fun a ha => ?_)
  obtain ⟨_, _, _, _, _, _, h1, _, _⟩ := ha
  have h1 : a.csr.nrows = c.nrows := h1
  unfold matNrows toOrd
  rw [h1]
  exact ⟨rfl, Nat.lt_of_lt_of_le (Nat.mod_lt _ (Nat.pow_pos (by decide))) hr⟩

/-- C95 (`CSR(n, m, nrows, ncols)`): the sizes and the lengths of the arrays are those given; their content is arbitrary. -/
theorem C95_new_csr (lw : Nat) (wgt : Bool) (n m nrows ncols : Nat) (hn : Spec.OffsetsFit lw n) :
    (newCsr (W := W) lw wgt n m nrows ncols).All (fun r => r.n = n ∧ r.m = m ∧ r.nrows = nrows ∧ r.ncols = ncols ∧ r.offsets.length = n + 1 ∧
      r.endpoints.length = m ∧ r.weights.length = if wgt then m else 0) ∧
    ∀ (f g : Nat → Nat) (h : Nat → W), (newCsr lw wgt n m nrows ncols).Out (.ok { offsets := (List.range (n + 1)).map f, endpoints := (List.range m).map g, weights := if wgt then (List.range m).map h else [], n := n, m := m, nrows := nrows, ncols := ncols }) := by
  have hp : plusOne lw n = n + 1 := by
    unfold plusOne
    split
    · rfl
    · rename_i h
      exact Nat.mod_eq_of_lt (hn.resolve_left h)
  constructor
  · unfold newCsr
    refine R.All.bind R.All.any (fun j _ => R.All.pure ⟨rfl, rfl, rfl, rfl, ?_, ?_, ?_⟩)
    · rw [alloc_length, hp]
    · rw [alloc_length]
    · cases wgt <;> simp [alloc_length]
  · intro f g h
    refine ⟨.ok ⟨f, g, h⟩, ⟨_, trivial, rfl⟩, ?_⟩
    show _ = _
    rw [hp]
    rfl

/-! ### The cases are not empty -/

example := C95_set_rows_cols 32 32 8 (by decide) true exCoo exCooEntries exCoo_holds 7 9 (by decide) (by decide) (by right; decide)
example := C95_set_n 32 32 8 (by decide) true exCoo exCooEntries exCoo_holds 100 (by decide) (by decide) (by right; decide)
example := C95_set_n_violated 32 32 8 true exCoo 2 0 2 (by decide) (by decide) (by decide)
example := C95_digraph 32 32 8 (by decide) true exCoo exCooEntries exCoo_holds (by decide) (by decide) (by right; decide) (by decide) (by decide) (by decide) (by decide)
example := C95_matrix 32 64 8 (by decide) true exCoo exCooEntries exCoo_holds (by decide) (by decide) (by right; decide) (by decide) (by decide) (by decide)

/-- A graph of 300 vertices with labels of 16 bits and ordinals of 8 bits: `n()` is 44. -/
def wideCoo : Coo Unit := { x := [299], y := [0], w := [], n := 300, m := 1, nrows := 300, ncols := 1 }

example := C95_digraph_violated 16 8 8 (by decide) false wideCoo [(299, 0, ())] ⟨rfl, rfl, rfl, by simp⟩ (by decide) (by decide) (by left; decide) (by decide)
example := C95_matrix_violated 16 8 8 (by decide) false wideCoo [(299, 0, ())] ⟨rfl, rfl, rfl, by simp⟩ (by decide) (by decide) (by left; decide) (by decide)
example : toOrd 8 300 = 44 := by decide

end Pigo
