import Verif.Props.Csr2

/-!
# Properties of sorting and of duplicate removal

C32–C36.  `sortCsr` is `CSR::sort`, `withoutDups` is `CSR::new_csr_without_dups`; its result is the pair of the
object it was called on (which it sorts) and the returned CSR.
-/

namespace Pigo

variable {W : Type}

/-- Rows of a CSR, as pairs. -/
theorem IsCsr.zip {c : Csr W} {rows : List (List (Nat × W))} (h : IsCsr c true rows) {v : Nat} {r : List (Nat × W)}
    (hr : rows[v]? = some r) : (Spec.row c v).zip (Spec.rowWeights c v) = r := by
  rw [h.row hr, h.rowWeights rfl hr]
  exact zip_unzip' r
where
  zip_unzip' : ∀ l : List (Nat × W), (l.map Prod.fst).zip (l.map Prod.snd) = l
    | [] => rfl
    | a :: l => by simp [zip_unzip' l]

/-- C32: `sort` keeps the sizes and offsets, the CSR stays valid, and every row becomes non-decreasing and is a
permutation of itself; for every assignment of rows to threads and every interleaving. -/
theorem C32_sort [Inhabited W] (T : Nat) (wgt : Bool) (wlt : W → W → Prop) (c : Csr W) (hc : Spec.ValidCsr c wgt) :
    (sortCsr T wgt wlt c).All (fun r => Spec.ValidCsr r wgt ∧ r.n = c.n ∧ r.m = c.m ∧ r.nrows = c.nrows ∧ r.ncols = c.ncols ∧
      r.offsets = c.offsets ∧
      ∀ v, v < c.n → (Spec.row r v).Perm (Spec.row c v) ∧ (Spec.row r v).Pairwise (· ≤ ·)) := by
  have hi := isCsr_of_valid hc (default : W)
  generalize rowsOfCsr wgt default c = rows at hi
  refine (sortCsr_all (T := T) (wlt := wlt) hi).mono (fun r hr => ?_)
  obtain ⟨rows', h1, hlen, hn, hm, hnr, hnc, ho, _, hrows⟩ := hr
  refine ⟨h1.valid, hn, hm, hnr, hnc, ho, fun v hv => ?_⟩
  rw [hi.n] at hv
  have e1 := getD_some hv
  have e2 := getD_some (rows := rows') (v := v) (by omega)
  obtain ⟨g1, g2, _⟩ := hrows v _ _ e1 e2
  rw [h1.row e2, hi.row e1]
  exact ⟨g1, g2.imp (fun h => Nat.le_of_not_lt h)⟩

/-- C33: the sort of a weighted CSR permutes the (endpoint, weight) pairs of a row and orders them by endpoint,
and by weight where the endpoints are equal. -/
theorem C33_sort_weighted [Inhabited W] (T : Nat) (wlt : W → W → Prop) (c : Csr W) (hc : Spec.ValidCsr c true) :
    (sortCsr T true wlt c).All (fun r => ∀ v, v < c.n →
      ((Spec.row r v).zip (Spec.rowWeights r v)).Perm ((Spec.row c v).zip (Spec.rowWeights c v)) ∧
      ((Spec.row r v).zip (Spec.rowWeights r v)).Pairwise (fun a b => a.1 < b.1 ∨ (a.1 = b.1 ∧ ¬ wlt b.2 a.2))) := by
  have hi := isCsr_of_valid hc (default : W)
  generalize rowsOfCsr true default c = rows at hi
  refine (sortCsr_all (T := T) (wlt := wlt) hi).mono (fun r hr => ?_)
  obtain ⟨rows', h1, hlen, _, _, _, _, _, _, hrows⟩ := hr
  intro v hv
  rw [hi.n] at hv
  have e1 := getD_some hv
  have e2 := getD_some (rows := rows') (v := v) (by omega)
  obtain ⟨_, _, g3⟩ := hrows v _ _ e1 e2
  rw [h1.zip e2, hi.zip e1]
  refine ⟨(g3 rfl).1, (g3 rfl).2.imp (fun {a b} h => ?_)⟩
  rw [pairLt, not_or, Classical.not_and_iff_not_or_not, Classical.not_not] at h
  rcases h.2 with h' | h'
  · exact .inl h'
  · rcases Nat.lt_or_ge a.1 b.1 with h'' | h''
    · exact .inl h''
    · exact .inr ⟨Nat.le_antisymm (Nat.le_of_not_lt h.1) h'', h'⟩

/-! ## Duplicate removal -/

theorem IsCsr.pairs {c : Csr W} {wgt : Bool} {rows : List (List (Nat × W))} (h : IsCsr c wgt rows) :
    Spec.pairs c = (List.range rows.length).flatMap (fun v => ((rows.getD v []).map Prod.fst).map (fun u => (v, u))) := by
  rw [Spec.pairs, h.n]
  apply flatMap_congr'
  intro v hv
  rw [h.row (getD_some (List.mem_range.mp hv))]

/-- C34: the CSR returned by `new_csr_without_dups` is valid, has the same number of rows and the same
`nrows()`, `ncols()`; every row is strictly increasing and holds exactly the distinct endpoints of the original
row; the object itself is left sorted.  Any number of threads, any schedule, any content of fresh memory. -/
theorem C34_without_dups [Inhabited W] (lw T : Nat) (hT : 0 < T) (wgt : Bool) (wlt : W → W → Prop) (c : Csr W)
    (hc : Spec.ValidCsr c wgt) (hl : ∀ u ∈ c.endpoints, u + 1 < 2 ^ lw) (hfit : Spec.OffsetsFit lw c.n) :
    (withoutDups lw T wgt wlt c).All (fun r =>
      (Spec.ValidCsr r.2 wgt ∧ r.2.n = c.n ∧ r.2.nrows = c.nrows ∧ r.2.ncols = c.ncols ∧
        ∀ v, v < c.n → (Spec.row r.2 v).Pairwise (· < ·) ∧ ∀ u, u ∈ Spec.row r.2 v ↔ u ∈ Spec.row c v) ∧
      (Spec.ValidCsr r.1 wgt ∧ r.1.n = c.n ∧ r.1.m = c.m ∧ r.1.offsets = c.offsets ∧
        ∀ v, v < c.n → (Spec.row r.1 v).Perm (Spec.row c v) ∧ (Spec.row r.1 v).Pairwise (· ≤ ·))) := by
  have hi := isCsr_of_valid hc (default : W)
  generalize rowsOfCsr wgt default c = rows at hi
  have hp : 0 < 2 ^ lw := Nat.two_pow_pos lw
  refine (withoutDups_all (B := 2 ^ lw - 1) hT (wlt := wlt) hi (fun u hu => by have := hl u hu; omega) (by omega) hfit).mono (fun r hr => ?_)
  obtain ⟨rows', h1, hlen, hn, hm, _, _, ho, hrows, hnr, hnc, h2⟩ := hr
  refine ⟨⟨h2.valid, by rw [h2.n, hi.n, List.length_map, hlen], hnr, hnc, fun v hv => ?_⟩, h1.valid, hn, hm, ho, fun v hv => ?_⟩
  all_goals
    rw [hi.n] at hv
    have e1 := getD_some hv
    have e2 := getD_some (rows := rows') (v := v) (by omega)
    obtain ⟨g1, g2, _⟩ := hrows v _ _ e1 e2
  · have e3 : (rows'.map dedupRow)[v]? = some (dedupRow (rows'.getD v [])) := by rw [List.getElem?_map, e2]; rfl
    rw [h2.row e3, hi.row e1]
    exact ⟨dedupRow_sorted _ g2, fun u => by rw [dedupRow_mem, g1.mem_iff]⟩
  · rw [h1.row e2, hi.row e1]
    exact ⟨g1, g2.imp (fun h => Nat.le_of_not_lt h)⟩

theorem ValidCsr.pairs_length {c : Csr W} {wgt : Bool} {rows : List (List (Nat × W))} (h : IsCsr c wgt rows) :
    c.m = (Spec.pairs c).length := by
  rw [h.pairs, List.length_flatMap, h.m, List.length_flatten]
  congr 1
  apply List.ext_getElem?
  intro v
  by_cases hv : v < rows.length
  · simp [hv]
  · simp [hv]

/-- C34, number of entries: the returned CSR holds every (row, endpoint) entry of the original exactly once, and
`m` is their number. -/
theorem C34_entry_set [Inhabited W] (lw T : Nat) (hT : 0 < T) (wgt : Bool) (wlt : W → W → Prop) (c : Csr W)
    (hc : Spec.ValidCsr c wgt) (hl : ∀ u ∈ c.endpoints, u + 1 < 2 ^ lw) (hfit : Spec.OffsetsFit lw c.n) :
    (withoutDups lw T wgt wlt c).All (fun r =>
      (Spec.pairs r.2).Nodup ∧ (∀ e, e ∈ Spec.pairs r.2 ↔ e ∈ Spec.pairs c) ∧ r.2.m = (Spec.pairs r.2).length) := by
  refine (C34_without_dups lw T hT wgt wlt c hc hl hfit).mono (fun r hr => ?_)
  obtain ⟨⟨hv, hn, _, _, hrow⟩, _⟩ := hr
  refine ⟨?_, ?_, ValidCsr.pairs_length (isCsr_of_valid hv (default : W))⟩
  · rw [Spec.pairs, hn, List.Nodup, List.pairwise_flatMap]
    refine ⟨fun v hv => ?_, ?_⟩
    · rw [List.pairwise_map]
      refine (hrow v (List.mem_range.mp hv)).1.imp (fun {a b} hab h => ?_)
      injection h with _ h
      omega
    · refine (range_pairwise _).imp ?_
      intro a b hab x hx y hy hxy
      obtain ⟨_, _, rfl⟩ := List.mem_map.mp hx
      obtain ⟨_, _, rfl⟩ := List.mem_map.mp hy
      injection hxy with hxy
      omega
  · intro e
    rw [Spec.pairs, Spec.pairs, hn, List.mem_flatMap, List.mem_flatMap]
    constructor
    · rintro ⟨v, hv, he⟩
      obtain ⟨u, hu, rfl⟩ := List.mem_map.mp he
      exact ⟨v, hv, List.mem_map.mpr ⟨u, ((hrow v (List.mem_range.mp hv)).2 u).mp hu, rfl⟩⟩
    · rintro ⟨v, hv, he⟩
      obtain ⟨u, hu, rfl⟩ := List.mem_map.mp he
      exact ⟨v, hv, List.mem_map.mpr ⟨u, ((hrow v (List.mem_range.mp hv)).2 u).mpr hu, rfl⟩⟩

/-- C35: every surviving entry of a weighted CSR is an entry of the original with no smaller weight among the
entries of that row with the same endpoint. -/
theorem C35_smallest_weight [Inhabited W] (lw T : Nat) (hT : 0 < T) (wlt : W → W → Prop) (hw : Spec.StrictWeak wlt) (c : Csr W)
    (hc : Spec.ValidCsr c true) (hl : ∀ u ∈ c.endpoints, u + 1 < 2 ^ lw) (hfit : Spec.OffsetsFit lw c.n) :
    (withoutDups lw T true wlt c).All (fun r =>
      ∀ v, v < c.n → ∀ p ∈ (Spec.row r.2 v).zip (Spec.rowWeights r.2 v),
        p ∈ (Spec.row c v).zip (Spec.rowWeights c v) ∧
        ∀ q ∈ (Spec.row c v).zip (Spec.rowWeights c v), q.1 = p.1 → ¬ wlt q.2 p.2) := by
  have hi := isCsr_of_valid hc (default : W)
  generalize rowsOfCsr true default c = rows at hi
  have hp : 0 < 2 ^ lw := Nat.two_pow_pos lw
  refine (withoutDups_all (B := 2 ^ lw - 1) hT (wlt := wlt) hi (fun u hu => by have := hl u hu; omega) (by omega) hfit).mono (fun r hr => ?_)
  obtain ⟨rows', h1, hlen, hn, hm, _, _, ho, hrows, hnr, hnc, h2⟩ := hr
  intro v hv p hpm
  rw [hi.n] at hv
  have e1 := getD_some hv
  have e2 := getD_some (rows := rows') (v := v) (by omega)
  obtain ⟨g1, g2, g3⟩ := hrows v _ _ e1 e2
  obtain ⟨g3, g4⟩ := g3 rfl
  have e3 : (rows'.map dedupRow)[v]? = some (dedupRow (rows'.getD v [])) := by rw [List.getElem?_map, e2]; rfl
  rw [h2.zip e3] at hpm
  rw [hi.zip e1]
  refine ⟨g3.mem_iff.mp ((dedupRow_sublist _).subset hpm), fun q hq he hlt => ?_⟩
  refine dedupRow_first (fun a b => ¬ pairLt wlt b a) ?_ g4 g2 hpm (g3.mem_iff.mpr hq) he ?_
  · rintro a (h | ⟨_, h⟩)
    · omega
    · exact hw.irrefl _ h
  · exact .inr ⟨by omega, hlt⟩

/-- Strictly increasing lists that are permutations of each other are equal. -/
theorem strict_perm_eq {l l' : List Nat} (hs : l.Pairwise (· < ·)) (hs' : l'.Pairwise (fun a b => ¬ b < a)) (hp : l'.Perm l) : l' = l := by
  refine hp.eq_of_pairwise (le := fun a b => a ≤ b) ?_ (hs'.imp (fun h => Nat.le_of_not_lt h)) (hs.imp (fun h => Nat.le_of_lt h))
  intro a b _ _ h1 h2
  exact Nat.le_antisymm h1 h2

theorem heads_strict (l : List (Nat × W)) : ∀ prev, (l.map Prod.fst).Pairwise (· < ·) → (∀ p ∈ l, prev < p.1) → heads prev l = l := by
  induction l with
  | nil => intros; rfl
  | cons a l ih =>
    intro prev hs hlt
    rw [List.map_cons, List.pairwise_cons] at hs
    have := hlt a (List.mem_cons_self ..)
    rw [heads, if_pos (by omega), ih a.1 hs.2 (fun p hp => hs.1 p.1 (List.mem_map_of_mem hp))]

theorem dedupRow_strict {l : List (Nat × W)} (hs : (l.map Prod.fst).Pairwise (· < ·)) : dedupRow l = l := by
  cases l with
  | nil => rfl
  | cons a l =>
    rw [List.map_cons, List.pairwise_cons] at hs
    rw [dedupRow, heads_strict l a.1 hs.2 (fun p hp => hs.1 p.1 (List.mem_map_of_mem hp))]

/-- A permutation of pairs with strictly increasing keys that is sorted by key is the same list. -/
theorem pair_perm_eq {l l' : List (Nat × W)} (hs : (l.map Prod.fst).Pairwise (· < ·)) (hs' : (l'.map Prod.fst).Pairwise (fun a b => ¬ b < a))
    (hp : l'.Perm l) : l' = l := by
  rw [List.pairwise_map] at hs hs'
  refine hp.eq_of_pairwise (le := fun a b => a.1 ≤ b.1) ?_ (hs'.imp (fun h => Nat.le_of_not_lt h)) (hs.imp (fun h => Nat.le_of_lt h))
  intro a b ha hb h1 h2
  have hb' := hb
  have ha' := hp.mem_iff.mp ha
  have he : a.1 = b.1 := Nat.le_antisymm h1 h2
  obtain ⟨i, hi, rfl⟩ := List.mem_iff_getElem.mp ha'
  obtain ⟨j, hj, rfl⟩ := List.mem_iff_getElem.mp hb'
  rw [List.pairwise_iff_getElem] at hs
  rcases Nat.lt_trichotomy i j with h | h | h
  · have := hs i j hi hj h; omega
  · subst h; rfl
  · have := hs j i hj hi h; omega

/-- Two CSRs agree in everything a user can observe. -/
def SameCsr (wgt : Bool) (a b : Csr W) : Prop :=
  a.n = b.n ∧ a.m = b.m ∧ a.nrows = b.nrows ∧ a.ncols = b.ncols ∧ a.offsets = b.offsets ∧ a.endpoints = b.endpoints ∧
  (wgt = true → a.weights = b.weights)

/-- Sorting and removing duplicates does nothing to a CSR with strictly increasing rows. -/
theorem withoutDups_strict [Inhabited W] (lw T : Nat) (hT : 0 < T) (wgt : Bool) (wlt : W → W → Prop) (c : Csr W)
    (hc : Spec.ValidCsr c wgt) (hl : ∀ u ∈ c.endpoints, u + 1 < 2 ^ lw) (hfit : Spec.OffsetsFit lw c.n)
    (hs : ∀ v, v < c.n → (Spec.row c v).Pairwise (· < ·)) :
    (withoutDups lw T wgt wlt c).All (fun r => SameCsr wgt r.1 c ∧ SameCsr wgt r.2 c) := by
  have hi := isCsr_of_valid hc (default : W)
  generalize rowsOfCsr wgt default c = rows at hi
  have hp : 0 < 2 ^ lw := Nat.two_pow_pos lw
  refine (withoutDups_all (B := 2 ^ lw - 1) hT (wlt := wlt) hi (fun u hu => by have := hl u hu; omega) (by omega) hfit).mono (fun r hr => ?_)
  obtain ⟨rows', h1, hlen, hn, hm, hnr1, hnc1, ho, hrows, hnr, hnc, h2⟩ := hr
  have hstr : ∀ (v : Nat) (l : List (Nat × W)), rows[v]? = some l → (l.map Prod.fst).Pairwise (· < ·) := by
    intro v l hv
    rw [← hi.row hv]
    exact hs v (by rw [hi.n]; exact (List.getElem?_eq_some_iff.mp hv).1)
  -- the sorted rows have the keys of the original rows
  have hkey : ∀ (v : Nat) (l l' : List (Nat × W)), rows[v]? = some l → rows'[v]? = some l' → l'.map Prod.fst = l.map Prod.fst := fun v l l' e1 e2 =>
    strict_perm_eq (hstr v l e1) (hrows v l l' e1 e2).2.1 (hrows v l l' e1 e2).1
  have hded : rows'.map dedupRow = rows' := by
    refine (List.map_congr_left (g := id) (fun l' hl' => ?_)).trans (List.map_id _)
    obtain ⟨v, hv⟩ := List.mem_iff_getElem?.mp hl'
    have hlt := (List.getElem?_eq_some_iff.mp hv).1
    have e1 := getD_some (rows := rows) (v := v) (by omega)
    exact dedupRow_strict (by rw [hkey v _ _ e1 hv]; exact hstr v _ e1)
  rw [hded] at h2
  have hfst : rows'.map (List.map Prod.fst) = rows.map (List.map Prod.fst) := by
    apply List.ext_getElem?
    intro v
    rw [List.getElem?_map, List.getElem?_map]
    by_cases hv : v < rows.length
    · have e1 := getD_some hv
      have e2 := getD_some (rows := rows') (v := v) (by omega)
      rw [e1, e2, Option.map_some, Option.map_some, hkey v _ _ e1 e2]
    · rw [List.getElem?_eq_none (by omega), List.getElem?_eq_none (by omega)]
  have hrw : wgt = true → rows' = rows := by
    intro hw
    apply List.ext_getElem?
    intro v
    by_cases hv : v < rows.length
    · have e1 := getD_some hv
      have e2 := getD_some (rows := rows') (v := v) (by omega)
      rw [e1, e2, pair_perm_eq (hstr v _ e1) (hrows v _ _ e1 e2).2.1 ((hrows v _ _ e1 e2).2.2 hw).1]
    · rw [List.getElem?_eq_none (by omega), List.getElem?_eq_none (by omega)]
  have hep : rows'.flatten.map Prod.fst = rows.flatten.map Prod.fst := by
    rw [List.map_flatten, hfst, ← List.map_flatten]
  have hm' : rows'.flatten.length = rows.flatten.length := by
    have := congrArg List.length hep
    rwa [List.length_map, List.length_map] at this
  refine ⟨⟨hn, hm, hnr1, hnc1, ho, by rw [h1.endpoints, hi.endpoints, hep], fun hw => by rw [h1.weights hw, hi.weights hw, hrw hw]⟩,
    by rw [h2.n, hi.n, hlen], by rw [h2.m, hi.m, hm'], hnr, hnc, by rw [h2.offsets, ← h1.offsets, ho],
    by rw [h2.endpoints, hi.endpoints, hep], fun hw => by rw [h2.weights hw, hi.weights hw, hrw hw]⟩

/-- C36: a second `new_csr_without_dups`, applied to the result of a first, changes neither its object nor its
result: both are the result of the first. -/
theorem C36_idempotent [Inhabited W] (lw T T' : Nat) (hT : 0 < T) (hT' : 0 < T') (wgt : Bool) (wlt : W → W → Prop) (c : Csr W)
    (hc : Spec.ValidCsr c wgt) (hl : ∀ u ∈ c.endpoints, u + 1 < 2 ^ lw) (hfit : Spec.OffsetsFit lw c.n) :
    (withoutDups lw T wgt wlt c >>= fun r => withoutDups lw T' wgt wlt r.2 >>= fun s => pure (r.2, s)).All
      (fun q => SameCsr wgt q.2.1 q.1 ∧ SameCsr wgt q.2.2 q.1) := by
  refine R.All.bind (C34_without_dups lw T hT wgt wlt c hc hl hfit) (fun r hr => ?_)
  obtain ⟨⟨hv, hn, _, _, hrow⟩, _⟩ := hr
  have hl' : ∀ u ∈ r.2.endpoints, u + 1 < 2 ^ lw := by
    intro u hu
    have hi := isCsr_of_valid hc (default : W)
    have hi2 := isCsr_of_valid hv (default : W)
    generalize rowsOfCsr wgt default c = rows at hi
    generalize rowsOfCsr wgt default r.2 = rows2 at hi2
    rw [hi2.endpoints] at hu
    obtain ⟨p, hp, rfl⟩ := List.mem_map.mp hu
    obtain ⟨l, hl2, hpl⟩ := List.mem_flatten.mp hp
    obtain ⟨v, hv2⟩ := List.mem_iff_getElem?.mp hl2
    have hlt : v < c.n := by rw [← hn, hi2.n]; exact (List.getElem?_eq_some_iff.mp hv2).1
    have h1 := (hrow v hlt).2 p.1
    rw [hi2.row hv2] at h1
    have h2 := h1.mp (List.mem_map_of_mem hpl)
    exact hl _ (List.mem_of_mem_drop (List.mem_of_mem_take h2))
  refine R.All.bind (withoutDups_strict lw T' hT' wgt wlt r.2 hv hl' (by rw [hn]; exact hfit) (fun v hvn => (hrow v (by rw [← hn]; exact hvn)).1)) (fun s hs => ?_)
  exact R.All.pure hs

/-! ## The hypotheses can be met and the programs have executions -/

theorem exists_isSort {α : Type} {lt : α → α → Prop} (h : Spec.StrictWeak lt) : ∃ srt, IsSort lt srt := by
  classical
  refine ⟨fun _ l => l.mergeSort (fun a b => decide (¬ lt b a)), fun v l => ⟨List.mergeSort_perm .., ?_⟩⟩
  refine (List.pairwise_mergeSort ?_ ?_ l).imp (fun h => by simpa using h)
  · intro a b c h1 h2
    simp only [decide_eq_true_eq] at *
    exact h.incomp c b a h2 h1
  · intro a b
    simp only [Bool.or_eq_true, decide_eq_true_eq]
    by_cases hba : lt b a
    · right; intro hab; exact h.irrefl _ (h.trans _ _ _ hab hba)
    · exact .inl hba

theorem pairLt_strictWeak {wlt : W → W → Prop} (h : Spec.StrictWeak wlt) : Spec.StrictWeak (pairLt wlt) where
  irrefl := by
    rintro a (h' | ⟨_, h'⟩)
    · omega
    · exact h.irrefl _ h'
  trans := by
    rintro a b c (h1 | ⟨h1, h2⟩) (h3 | ⟨h3, h4⟩)
    · exact .inl (by omega)
    · exact .inl (by omega)
    · exact .inl (by omega)
    · exact .inr ⟨by omega, h.trans _ _ _ h2 h4⟩
  incomp := by
    intro a b c h1 h2 h3
    simp only [pairLt, not_or, Classical.not_and_iff_not_or_not, Classical.not_not] at h1 h2
    rcases h3 with h3 | ⟨h3, h4⟩
    · omega
    · rcases h1.2 with h1' | h1'
      · omega
      · rcases h2.2 with h2' | h2'
        · omega
        · exact h.incomp _ _ _ h1' h2' h4

theorem natLt_strictWeak : Spec.StrictWeak (fun a b : Nat => a < b) :=
  ⟨fun a => Nat.lt_irrefl a, fun _ _ _ => Nat.lt_trans, fun _ _ _ h1 h2 => by omega⟩

theorem intLt_strictWeak : Spec.StrictWeak (fun a b : Int => a < b) :=
  ⟨fun a => Int.lt_irrefl a, fun _ _ _ => Int.lt_trans, fun _ _ _ h1 h2 => by omega⟩

/-- `sort` has an execution. -/
theorem sortCsr_any {T : Nat} (hT : 0 < T) (wgt : Bool) {wlt : W → W → Prop} (h : Spec.StrictWeak wlt) (c : Csr W) :
    (sortCsr T wgt wlt c).Any := by
  obtain ⟨s1, h1⟩ := exists_isSort natLt_strictWeak
  obtain ⟨s2, h2⟩ := exists_isSort (pairLt_strictWeak h)
  exact R.Any.bind (R.Any.choose h1) (fun _ => R.Any.bind (R.Any.choose h2) (fun _ => R.Any.bind (R.Any.choose (OmpFor.one _ _ hT).dyn)
    (fun _ => R.Any.bind (R.Any.par ..) (fun _ => R.Any.pure _))))

/-- `new_csr_without_dups` has an execution. -/
theorem withoutDups_any [Nonempty W] {lw T : Nat} (hT : 0 < T) (wgt : Bool) {wlt : W → W → Prop} (h : Spec.StrictWeak wlt) (c : Csr W) :
    (withoutDups lw T wgt wlt c).Any := by
  obtain ⟨w⟩ := ‹Nonempty W›
  haveI : Nonempty (CsrJunk W) := ⟨⟨fun _ => 0, fun _ => 0, fun _ => w⟩⟩
  refine R.Any.bind (sortCsr_any hT wgt h c) (fun c => ?_)
  refine R.Any.bind R.Any.any (fun _ => R.Any.bind (R.Any.choose (OmpFor.one _ _ hT).dyn) (fun _ => R.Any.bind (R.Any.lift _) (fun _ => ?_)))
  refine R.Any.bind (R.Any.par ..) (fun _ => R.Any.bind R.Any.any (fun _ => R.Any.bind R.Any.any (fun _ => R.Any.bind (R.Any.par ..) (fun _ => ?_))))
  refine R.Any.bind (R.Any.par ..) (fun _ => R.Any.bind (R.Any.choose (OmpFor.one _ _ hT).dyn) (fun _ => R.Any.bind (R.Any.lift _) (fun _ => ?_)))
  exact R.Any.bind (R.Any.par ..) (fun _ => R.Any.pure _)

/-- The example CSR meets the hypotheses of C32–C36: rows [3, 3], [1], [], [1, 0, 1]. -/
example : Spec.ValidCsr exCsr true ∧ (∀ u ∈ exCsr.endpoints, u + 1 < 2 ^ 32) ∧ Spec.StrictWeak (fun a b : Int => a < b) ∧
    (sortCsr 3 true (fun a b : Int => a < b) exCsr).Any ∧ (withoutDups 32 3 true (fun a b : Int => a < b) exCsr).Any :=
  ⟨exCsr_valid, by decide, intLt_strictWeak, sortCsr_any (by omega) _ intLt_strictWeak _, withoutDups_any (by omega) _ intLt_strictWeak _⟩

end Pigo
