import Verif.Lemmas.CsrSort

/-!
# `CSR::new_csr_without_dups`
-/

namespace Pigo

variable {W : Type}

/-- Entries starting a new run after `prev`. -/
def heads : Nat → List (Nat × W) → List (Nat × W)
  | _, [] => []
  | prev, p :: l => if prev ≠ p.1 then p :: heads p.1 l else heads prev l

/-- The first entry of every run. -/
def dedupRow : List (Nat × W) → List (Nat × W)
  | [] => []
  | p :: l => p :: heads p.1 l

theorem countRuns_eq (l : List (Nat × W)) : ∀ prev deg, countRuns prev deg (l.map Prod.fst) = deg + (heads prev l).length := by
  induction l with
  | nil => intro prev deg; rfl
  | cons p l ih =>
    intro prev deg
    simp only [List.map_cons, countRuns, heads]
    by_cases h : p.1 = prev
    · rw [if_neg (by simpa using h), if_neg (by simpa using h.symm), ih]
    · rw [if_pos h, if_pos (Ne.symm h), ih, List.length_cons]; omega

theorem copyRuns_eq (wgt : Bool) (l : List (Nat × W)) : ∀ prev,
    copyRuns prev (l.map (fun p => (p.1, wOpt wgt p.2))) = (heads prev l).map (fun p => (p.1, wOpt wgt p.2)) := by
  induction l with
  | nil => intro prev; rfl
  | cons p l ih =>
    intro prev
    simp only [List.map_cons, copyRuns, heads]
    split
    · rw [ih, List.map_cons]
    · rw [ih]

theorem heads_sublist (l : List (Nat × W)) : ∀ prev, (heads prev l).Sublist l := by
  induction l with
  | nil => intro prev; exact .slnil
  | cons p l ih =>
    intro prev
    unfold heads
    split
    · exact (ih _).cons_cons p
    · exact (ih _).cons p

theorem dedupRow_sublist (l : List (Nat × W)) : (dedupRow l).Sublist l := by
  cases l with
  | nil => exact .slnil
  | cons p l => exact (heads_sublist l _).cons_cons p

/-- On a sorted row the heads increase strictly. -/
theorem heads_sorted (l : List (Nat × W)) : ∀ prev, (∀ p ∈ l, prev ≤ p.1) → (l.map Prod.fst).Pairwise (fun a b => ¬ b < a) →
    ((heads prev l).map Prod.fst).Pairwise (· < ·) ∧ ∀ p ∈ heads prev l, prev < p.1 := by
  induction l with
  | nil => intro prev _ _; simp [heads]
  | cons p l ih =>
    intro prev hle hs
    rw [List.map_cons, List.pairwise_cons] at hs
    have hp : ∀ q ∈ l, p.1 ≤ q.1 := fun q hq => Nat.le_of_not_lt (hs.1 q.1 (List.mem_map_of_mem hq))
    have hprev := hle p (List.mem_cons_self ..)
    unfold heads
    split
    · rename_i hne
      obtain ⟨h1, h2⟩ := ih p.1 hp hs.2
      refine ⟨?_, ?_⟩
      · rw [List.map_cons, List.pairwise_cons]
        refine ⟨?_, h1⟩
        intro a ha
        obtain ⟨q, hq, rfl⟩ := List.mem_map.mp ha
        exact h2 q hq
      · intro q hq
        rcases List.mem_cons.mp hq with rfl | hq
        · omega
        · have := h2 q hq; omega
    · exact ih prev (fun q hq => hle q (List.mem_cons_of_mem _ hq)) hs.2

theorem dedupRow_sorted (l : List (Nat × W)) (hs : (l.map Prod.fst).Pairwise (fun a b => ¬ b < a)) :
    ((dedupRow l).map Prod.fst).Pairwise (· < ·) := by
  cases l with
  | nil => simp [dedupRow]
  | cons p l =>
    rw [List.map_cons, List.pairwise_cons] at hs
    have hp : ∀ q ∈ l, p.1 ≤ q.1 := fun q hq => Nat.le_of_not_lt (hs.1 q.1 (List.mem_map_of_mem hq))
    obtain ⟨h1, h2⟩ := heads_sorted l p.1 hp hs.2
    rw [dedupRow, List.map_cons, List.pairwise_cons]
    refine ⟨?_, h1⟩
    intro a ha
    obtain ⟨q, hq, rfl⟩ := List.mem_map.mp ha
    exact h2 q hq

theorem heads_mem (l : List (Nat × W)) : ∀ prev u, u ∈ l.map Prod.fst → u = prev ∨ u ∈ (heads prev l).map Prod.fst := by
  induction l with
  | nil => intro prev u h; cases h
  | cons p l ih =>
    intro prev u h
    rw [List.map_cons] at h
    unfold heads
    split
    · rename_i hne
      rw [List.map_cons]
      rcases List.mem_cons.mp h with rfl | h
      · exact .inr (List.mem_cons_self ..)
      · rcases ih p.1 u h with rfl | h
        · exact .inr (List.mem_cons_self ..)
        · exact .inr (List.mem_cons_of_mem _ h)
    · rename_i hne
      rcases List.mem_cons.mp h with rfl | h
      · exact .inl (by simpa using (Eq.symm (Classical.not_not.mp hne)))
      · exact ih prev u h

/-- Exactly the distinct endpoints survive. -/
theorem dedupRow_mem (l : List (Nat × W)) (u : Nat) : u ∈ (dedupRow l).map Prod.fst ↔ u ∈ l.map Prod.fst := by
  constructor
  · exact fun h => ((dedupRow_sublist l).map Prod.fst).subset h
  · cases l with
    | nil => intro h; exact h
    | cons p l =>
      intro h
      rw [List.map_cons] at h
      rw [dedupRow, List.map_cons]
      rcases List.mem_cons.mp h with rfl | h
      · exact List.mem_cons_self ..
      · rcases heads_mem l p.1 u h with rfl | h
        · exact List.mem_cons_self ..
        · exact List.mem_cons_of_mem _ h

/-- A surviving entry precedes all entries with its endpoint. -/
theorem heads_first (l : List (Nat × W)) (R : Nat × W → Nat × W → Prop) (hR : ∀ a, R a a) (hs : l.Pairwise R)
    (hsort : (l.map Prod.fst).Pairwise (fun a b => ¬ b < a)) : ∀ prev, (∀ p ∈ l, prev ≤ p.1) →
    ∀ p ∈ heads prev l, ∀ q ∈ l, q.1 = p.1 → R p q := by
  induction l with
  | nil => intro prev _ p hp; cases hp
  | cons a l ih =>
    intro prev hle p hp q hq he
    rw [List.pairwise_cons] at hs
    rw [List.map_cons, List.pairwise_cons] at hsort
    have ha : ∀ q ∈ l, a.1 ≤ q.1 := fun q hq => Nat.le_of_not_lt (hsort.1 q.1 (List.mem_map_of_mem hq))
    unfold heads at hp
    split at hp
    · rename_i hne
      rcases List.mem_cons.mp hp with rfl | hp
      · rcases List.mem_cons.mp hq with rfl | hq
        · exact hR _
        · exact hs.1 q hq
      · have hlt := (heads_sorted l a.1 ha hsort.2).2 p hp
        rcases List.mem_cons.mp hq with rfl | hq
        · omega
        · exact ih hs.2 hsort.2 a.1 ha p hp q hq he
    · rename_i hne
      have hne' : prev = a.1 := Classical.not_not.mp hne
      have hle' : ∀ p ∈ l, prev ≤ p.1 := fun q hq => hle q (List.mem_cons_of_mem _ hq)
      have hlt := (heads_sorted l prev hle' hsort.2).2 p hp
      rcases List.mem_cons.mp hq with rfl | hq
      · omega
      · exact ih hs.2 hsort.2 prev hle' p hp q hq he

theorem dedupRow_first {l : List (Nat × W)} (R : Nat × W → Nat × W → Prop) (hR : ∀ a, R a a) (hs : l.Pairwise R)
    (hsort : (l.map Prod.fst).Pairwise (fun a b => ¬ b < a)) {p q : Nat × W} (hp : p ∈ dedupRow l) (hq : q ∈ l) (he : q.1 = p.1) :
    R p q := by
  cases l with
  | nil => cases hq
  | cons a l =>
    rw [List.pairwise_cons] at hs
    rw [List.map_cons, List.pairwise_cons] at hsort
    have ha : ∀ q ∈ l, a.1 ≤ q.1 := fun q hq => Nat.le_of_not_lt (hsort.1 q.1 (List.mem_map_of_mem hq))
    rw [dedupRow] at hp
    rcases List.mem_cons.mp hp with rfl | hp
    · rcases List.mem_cons.mp hq with rfl | hq
      · exact hR _
      · exact hs.1 q hq
    · have hlt := (heads_sorted l a.1 ha hsort.2).2 p hp
      rcases List.mem_cons.mp hq with rfl | hq
      · omega
      · exact heads_first l R hR hs.2 hsort.2 a.1 ha p hp q hq he

theorem strict_length {B : Nat} : ∀ (l : List Nat) (a : Nat), l.Pairwise (· < ·) → (∀ u ∈ l, a ≤ u ∧ u < B) → l.length ≤ B - a := by
  intro l
  induction l with
  | nil => intro a _ _; simp
  | cons x l ih =>
    intro a hp hb
    rw [List.pairwise_cons] at hp
    have hx := hb x (List.mem_cons_self ..)
    have := ih (x + 1) hp.2 (fun u hu => ⟨hp.1 u hu, (hb u (List.mem_cons_of_mem _ hu)).2⟩)
    rw [List.length_cons]; omega

/-! ### The copy loop -/

theorem copy_lefts (wgt : Bool) (l : List (Nat × W)) : ∀ p,
    (dupActs p (l.map (fun q => (q.1, wOpt wgt q.2)))).filterMap Sum.getLeft? = blockActs p (l.map Prod.fst) := by
  induction l with
  | nil => intro p; rfl
  | cons a l ih =>
    intro p
    have := ih (p + 1)
    cases wgt with
    | true =>
      simp only [dupActs, wOpt, if_true] at this
      simp only [dupActs, List.map_cons, blockActs, wOpt, if_true, List.flatMap_cons, List.cons_append, List.nil_append,
        List.filterMap_cons, Sum.getLeft?, this]
    | false =>
      simp only [dupActs, wOpt, Bool.false_eq_true, if_false] at this
      simp only [dupActs, List.map_cons, blockActs, wOpt, Bool.false_eq_true, if_false, List.flatMap_cons, List.cons_append, List.nil_append,
        List.filterMap_cons, Sum.getLeft?, this]

theorem copy_rights (wgt : Bool) (l : List (Nat × W)) : ∀ p,
    (dupActs p (l.map (fun q => (q.1, wOpt wgt q.2)))).filterMap Sum.getRight?
      = if wgt then blockActs p (l.map Prod.snd) else [] := by
  induction l with
  | nil => intro p; cases wgt <;> rfl
  | cons a l ih =>
    intro p
    have := ih (p + 1)
    cases wgt with
    | true =>
      simp only [dupActs, wOpt, if_true] at this
      simp only [dupActs, List.map_cons, blockActs, wOpt, if_true, List.flatMap_cons, List.cons_append, List.nil_append,
        List.filterMap_cons, Sum.getRight?, this]
    | false =>
      simp only [dupActs, wOpt, Bool.false_eq_true, if_false] at this
      simp only [dupActs, List.map_cons, blockActs, wOpt, Bool.false_eq_true, if_false, List.flatMap_cons, List.cons_append, List.nil_append,
        List.filterMap_cons, Sum.getRight?, this]

theorem dupDeg_eq {c : Csr W} {wgt : Bool} {rows : List (List (Nat × W))} (h : IsCsr c wgt rows) {lw v : Nat} {r : List (Nat × W)}
    (hr : rows[v]? = some r) (hb : (dedupRow r).length < 2 ^ lw) : dupDeg lw c v = .ok (dedupRow r).length := by
  obtain ⟨h1, h2, h3, _⟩ := h.load_row hr
  unfold dupDeg
  rw [h1, ok_bind, h2, ok_bind, h3, ok_bind]
  cases r with
  | nil => rfl
  | cons p r =>
    simp only [List.map_cons, countRuns_eq, dedupRow, List.length_cons] at hb ⊢
    rw [Nat.mod_eq_of_lt (by omega), Nat.add_comm]

theorem dupRow_eq {v ncur : Nat} {offs : List Nat} (ho : load offs v = .ok ncur) (wgt : Bool) (r : List (Nat × W)) :
    dupRow offs v (r.map (fun p => (p.1, wOpt wgt p.2))) = .ok (dupActs ncur ((dedupRow r).map (fun q => (q.1, wOpt wgt q.2)))) := by
  cases r with
  | nil => rfl
  | cons p r => simp only [List.map_cons, dupRow, copyRuns_eq, ho, ok_bind, dedupRow]

theorem dupCopy_eq {c : Csr W} {wgt : Bool} {rows : List (List (Nat × W))} (h : IsCsr c wgt rows) {v ncur : Nat} {r : List (Nat × W)}
    (hr : rows[v]? = some r) {offs : List Nat} (ho : load offs v = .ok ncur) : dupCopy wgt c offs v =
      .ok (dupActs ncur ((dedupRow r).map (fun q => (q.1, wOpt wgt q.2)))) := by
  obtain ⟨h1, h2, h3, h4⟩ := h.load_row hr
  rw [← dupRow_eq ho wgt r]
  unfold dupCopy
  rw [h1, ok_bind, h2, ok_bind, h3, ok_bind]
  cases hw : wgt with
  | true =>
    have hz := zip_wOpt true r
    rw [if_pos rfl] at hz
    subst hw
    simp only [h4, ok_bind, if_true, hz]
  | false =>
    have hz := zip_wOpt false r
    rw [if_neg (by simp)] at hz
    rw [← hz]
    rfl

theorem getD_some {α : Type} {rows : List (List α)} {v : Nat} (hv : v < rows.length) : rows[v]? = some (rows.getD v []) := by
  rw [List.getD_eq_getElem?_getD, List.getElem?_eq_getElem hv]; rfl

/-- Filling an array by a parallel loop over its indices. -/
theorem fill_dyn {n T : Nat} {its : List (List Nat)} (h : OmpDyn n T its) {α : Type} (f : Nat → α) {sched : List (Nat × α)}
    (hs : Interleave (its.map (fun vs => vs.map (fun v => (v, f v)))) sched) (a : List α) (ha : a.length = n) :
    runActs storeAct sched a = .ok (alloc f n) := by
  refine run_fill ?_ a (by simp [ha])
  refine hs.perm.trans ?_
  rw [show (its.map (fun vs => vs.map (fun v => (v, f v)))).flatten = its.flatten.map (fun v => (v, f v)) from List.map_flatten.symm]
  exact (h.all.map _).trans (List.Perm.of_eq (range_eq_blockActs f n))

theorem map_range_getD {α β : Type} (rows : List (List α)) (f : List α → β) :
    (List.range rows.length).map (fun v => f (rows.getD v [])) = rows.map f := by
  apply List.ext_getElem?
  intro i
  by_cases h : i < rows.length
  · simp [h]
  · simp [h]

/-- The new CSR for given sorted rows. -/
theorem withoutDups_all {lw T : Nat} (hT : 0 < T) {wgt : Bool} {wlt : W → W → Prop} {c : Csr W} {rows : List (List (Nat × W))}
    (h : IsCsr c wgt rows) {B : Nat} (hB : ∀ u ∈ c.endpoints, u < B) (hlw : B < 2 ^ lw) (hfit : Spec.OffsetsFit lw c.n) :
    (withoutDups lw T wgt wlt c).All (fun r => ∃ rows', IsCsr r.1 wgt rows' ∧ rows'.length = rows.length ∧
      r.1.n = c.n ∧ r.1.m = c.m ∧ r.1.nrows = c.nrows ∧ r.1.ncols = c.ncols ∧ r.1.offsets = c.offsets ∧
      (∀ (v : Nat) (l l' : List (Nat × W)), rows[v]? = some l → rows'[v]? = some l' →
        (l'.map Prod.fst).Perm (l.map Prod.fst) ∧ (l'.map Prod.fst).Pairwise (fun a b => ¬ b < a) ∧
        (wgt = true → l'.Perm l ∧ l'.Pairwise (fun a b => ¬ pairLt wlt b a))) ∧
      r.2.nrows = c.nrows ∧ r.2.ncols = c.ncols ∧ IsCsr r.2 wgt (rows'.map dedupRow)) := by
  unfold withoutDups
  refine R.All.bind (sortCsr_all h) (fun c1 hc1 => ?_)
  obtain ⟨rows', h1, hlen, hn, hm, hnr, hnc, ho, hwt, hrows⟩ := hc1
  have hp1 : plusOne lw c1.n = c1.n + 1 := plusOne_fit (by rw [hn]; exact hfit)
  simp only [hp1]
  have hbound : ∀ v, v < rows'.length → (dedupRow (rows'.getD v [])).length < 2 ^ lw := by
    intro v hv
    have hr' := getD_some hv
    have hr : rows[v]? = some (rows.getD v []) := getD_some (by omega)
    obtain ⟨g1, g2, _⟩ := hrows v _ _ hr hr'
    have := strict_length (B := B) ((dedupRow (rows'.getD v [])).map Prod.fst) 0 (dedupRow_sorted _ g2) (by
      intro u hu
      refine ⟨Nat.zero_le _, hB u ?_⟩
      rw [dedupRow_mem, g1.mem_iff] at hu
      rw [h.endpoints, List.map_flatten]
      exact List.mem_flatten.mpr ⟨_, List.mem_map_of_mem (List.mem_of_getElem? hr), hu⟩)
    rw [List.length_map] at this
    omega
  let deg : Nat → Nat := fun v => (dedupRow (rows'.getD v [])).length
  have hdeg : ∀ v, v < rows'.length → dupDeg lw c1 v = .ok (deg v) := fun v hv => dupDeg_eq h1 (getD_some hv) (hbound v hv)
  have hn1 : c1.n = rows'.length := h1.n
  refine R.All.bind R.All.any (fun jd _ => ?_)
  refine R.All.bind (P := OmpDyn c1.n T) (R.All.choose (fun _ h => h)) (fun its hits => ?_)
  have hlt : ∀ {its : List (List Nat)}, OmpDyn c1.n T its → ∀ v ∈ its.flatten, v < rows'.length := by
    intro its hits v hv
    have := List.mem_range.mp (hits.all.mem_iff.mp hv)
    omega
  refine R.All.bind (P := fun t => t = its.map (fun vs => vs.map (fun v => (v, deg v))))
    (R.All.lift (mapE_nested (fun v hv => by rw [hdeg v (hlt hits v hv)]; rfl)) rfl) (fun counts hcounts => ?_)
  subst hcounts
  refine R.All.bind (P := fun d => d = alloc deg c1.n) (R.All.par (fun sched hs => ⟨_, fill_dyn hits deg hs _ (by simp), rfl⟩))
    (fun degs hdegs => ?_)
  have hnewM : ((its.map (fun vs => vs.map (fun v => (v, deg v)))).map (fun t => (t.map Prod.snd).sum)).sum = degs.sum := by
    rw [hdegs, alloc]
    have e : ∀ its : List (List Nat), ((its.map (fun vs => vs.map (fun v => (v, deg v)))).map (fun t => (t.map Prod.snd).sum)).sum =
        (its.flatten.map deg).sum := by
      intro its
      induction its with
      | nil => rfl
      | cons a its ih =>
        rw [List.map_cons, List.map_cons, List.sum_cons, ih, List.flatten_cons, List.map_append, List.sum_append, List.map_map]
        rfl
    rw [e]
    exact (hits.all.map deg).sum_nat
  have hdl : degs.length = c1.n := by rw [hdegs]; simp
  refine R.All.bind R.All.any (fun j _ => ?_)
  refine R.All.bind R.All.any (fun js _ => ?_)
  refine R.All.bind (P := fun s => s = (List.range T).map (fun tid => (slice degs c1.n T tid).sum)) (R.All.par (fun sched hs => ?_))
    (fun starts hstarts => ?_)
  · refine ⟨_, run_fill (vs := (List.range T).map (fun tid => (slice degs c1.n T tid).sum)) ?_ _ (by simp), rfl⟩
    refine hs.perm.trans (List.Perm.of_eq ?_)
    rw [← range_eq_blockActs (fun tid => (slice degs c1.n T tid).sum)]
    induction List.range T with
    | nil => rfl
    | cons a l ih => simp [ih]
  subst hstarts
  refine R.All.bind (P := fun o => o = offsetsOf degs) (R.All.par (fun sched hs => ?_)) (fun offs hoffs => ?_)
  · rw [hnewM] at hs
    exact ⟨_, run_offsets hT hdl hs _ (by simp), rfl⟩
  subst hoffs
  have hdegrows : degs = (rows'.map dedupRow).map List.length := by
    rw [hdegs, alloc, hn1, List.map_map]
    exact map_range_getD rows' (fun r => (dedupRow r).length)
  have hoff : ∀ v, v ≤ rows'.length → load (offsetsOf degs) v = .ok ((rows'.map dedupRow).take v).flatten.length := by
    intro v hv
    rw [hdegrows]
    exact load_ok (by rw [offsetsOf_getElem? _ (by simpa using hv), take_sum_length])
  refine R.All.bind (P := OmpDyn c1.n T) (R.All.choose (fun _ h => h)) (fun its2 hits2 => ?_)
  refine R.All.bind (P := fun t => t = its2.map (fun vs => vs.map (fun v =>
      dupActs ((rows'.map dedupRow).take v).flatten.length ((dedupRow (rows'.getD v [])).map (fun q => (q.1, wOpt wgt q.2))))))
    (R.All.lift (mapE_nested (fun v hv => by
      have hv' := hlt hits2 v hv
      exact dupCopy_eq h1 (getD_some hv') (hoff v (by omega)))) rfl) (fun th hth => ?_)
  subst hth
  have hpos : ∀ v, v < rows'.length → ((rows'.map dedupRow).take (v + 1)).flatten.length =
      ((rows'.map dedupRow).take v).flatten.length + (dedupRow (rows'.getD v [])).length := by
    intro v hv
    rw [flatten_take_succ (rows'.map dedupRow) (r := dedupRow (rows'.getD v [])) (by rw [List.getElem?_map, getD_some hv]; rfl),
      List.length_append]
  have hb : ∀ {α : Type} (f : Nat × W → α), (List.range rows'.length).flatMap (fun v =>
      blockActs ((rows'.map dedupRow).take v).flatten.length ((dedupRow (rows'.getD v [])).map f)) =
      blockActs 0 ((rows'.map dedupRow).flatten.map f) := by
    intro α f
    have := (blocks_at (fun v => ((rows'.map dedupRow).take v).flatten.length) (fun v => (dedupRow (rows'.getD v [])).map f)
      rows'.length (by simp) (by simpa using hpos)).1
    rw [this, List.flatMap_def, List.map_flatten, List.map_map]
    congr 2
    exact map_range_getD rows' (fun r => (dedupRow r).map f)
  have hnewlen : degs.sum = (rows'.map dedupRow).flatten.length := by rw [hdegrows, List.length_flatten]
  refine R.All.bind (P := fun s => s.1 = (rows'.map dedupRow).flatten.map Prod.fst ∧
      (wgt = true → s.2 = (rows'.map dedupRow).flatten.map Prod.snd)) (R.All.par (fun sched hs => ?_)) (fun s hs => ?_)
  · have hp := hs.perm
    rw [flatten_threads] at hp
    have hp2 := hp.trans (hits2.all.flatMap_right _)
    rw [hn1] at hp2
    rw [hnewM]
    have hl := hp2.filterMap Sum.getLeft?
    have hr := hp2.filterMap Sum.getRight?
    rw [List.filterMap_flatMap] at hl hr
    have e1 : (sched.filterMap Sum.getLeft?).Perm (blockActs 0 ((rows'.map dedupRow).flatten.map Prod.fst)) := by
      refine hl.trans (List.Perm.of_eq ?_)
      rw [← hb]
      exact flatMap_congr' (fun v _ => copy_lefts wgt _ _)
    have e2 : (sched.filterMap Sum.getRight?).Perm (if wgt then blockActs 0 ((rows'.map dedupRow).flatten.map Prod.snd) else []) := by
      refine hr.trans (List.Perm.of_eq ?_)
      cases hw : wgt with
      | true =>
        rw [if_pos rfl, ← hb]
        refine flatMap_congr' (fun v _ => ?_)
        have := copy_rights true (dedupRow (rows'.getD v [])) ((rows'.map dedupRow).take v).flatten.length
        rw [if_pos rfl] at this
        exact this
      | false =>
        rw [if_neg (by simp), List.flatMap_eq_nil_iff]
        intro v _
        have := copy_rights false (dedupRow (rows'.getD v [])) ((rows'.map dedupRow).take v).flatten.length
        rw [if_neg (by simp)] at this
        exact this
    refine ⟨_, run_sum _ _ _ _ _ _ (if wgt then (rows'.map dedupRow).flatten.map Prod.snd else []) (run_fill e1 _ (by rw [List.length_map, alloc_length, hnewlen])) ?_, rfl, ?_⟩
    · cases hw : wgt with
      | true =>
        rw [hw, if_pos rfl] at e2
        exact run_fill e2 _ (by rw [List.length_map, if_pos rfl, alloc_length, hnewlen])
      | false =>
        rw [hw, if_neg (by simp)] at e2
        rw [e2.eq_nil]
        rfl
    · intro hw; simp [hw]
  refine R.All.pure ⟨rows', h1, hlen, hn, hm, hnr, hnc, ho, hrows, hnr, hnc, ?_⟩
  refine ⟨by rw [List.length_map]; exact hn1, ?_, ?_, hs.1, hs.2⟩
  · show _ = _
    rw [← hnewlen]; exact hnewM
  · show offsetsOf degs = _
    rw [hdegrows]

end Pigo
