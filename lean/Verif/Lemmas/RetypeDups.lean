import Verif.Lemmas.Retype
import Verif.Lemmas.CsrDedup

/-!
# `new_csr_without_dups` into another type
-/

namespace Pigo

variable {W V : Type}

theorem runSums_le : ∀ (ds : List Nat) (acc : Nat), ∀ s ∈ runSums acc ds, s ≤ acc + ds.sum
  | [], _, _, h => by cases h
  | d :: ds, acc, s, h => by
    rw [List.sum_cons]
    rcases List.mem_cons.mp h with rfl | h
    · omega
    · have := runSums_le ds (acc + d) s h
      omega

theorem map_narrow {w : Nat} {l : List Nat} (h : ∀ a ∈ l, a < 2 ^ w) : l.map (narrow w) = l := by
  conv => rhs; rw [← List.map_id l]
  exact List.map_congr_left (fun a ha => narrow_lt (h a ha))

theorem sum_take_slice (degs : List Nat) (n T tid : Nat) : (degs.take (vStart n T tid)).sum + (slice degs n T tid).sum ≤ degs.sum := by
  have h1 : degs.sum = (degs.take (vStart n T tid)).sum + (degs.drop (vStart n T tid)).sum := by
    rw [← List.sum_append, List.take_append_drop]
  have h2 : (degs.drop (vStart n T tid)).sum = (slice degs n T tid).sum +
      ((degs.drop (vStart n T tid)).drop (vStart n T (tid + 1) - vStart n T tid)).sum := by
    rw [slice, ← List.sum_append, List.take_append_drop]
  omega

/-- The offsets stored for the new CSR are not changed by the conversion to its ordinal type when the total fits. -/
theorem offsetThreadsTo_eq {n T now nlw : Nat} {degs : List Nat} (hs : degs.sum < 2 ^ now) (hn : n < 2 ^ nlw) :
    ((List.range T).map (fun tid => blockActs (vStart n T tid) ((runSums (startOf
        (prefixSums 0 ((List.range T).map (fun tid => (slice degs n T tid).sum))) tid) (slice degs n T tid)).map (narrow now)))
      ++ [[(narrow nlw n, degs.sum)]]) =
    offsetThreads n degs.sum T degs (prefixSums 0 ((List.range T).map (fun tid => (slice degs n T tid).sum))) := by
  unfold offsetThreads
  rw [narrow_lt hn]
  congr 1
  apply List.map_congr_left
  intro tid ht
  rw [start_slices degs n T tid (Nat.le_of_lt (List.mem_range.mp ht)), map_narrow]
  intro a ha
  have h1 := runSums_le _ _ a ha
  have h2 := sum_take_slice degs n T tid
  omega

theorem dupCopyTo_eq {nlw now : Nat} {nw : Bool} {conv : W → V} {c : Csr W} {offs : List Nat} {v : Nat} (hv : v < 2 ^ nlw) :
    dupCopyTo nlw now nw conv c offs v = dupCopy nw c offs v >>= fun acts => .ok (acts.map (retypeAct nlw now conv)) := by
  unfold dupCopyTo dupCopy
  rw [narrow_lt hv]
  cases load c.offsets v with
  | error f => rfl
  | ok s =>
    cases load c.offsets (v + 1) with
    | error f => rfl
    | ok e =>
      cases h : loadRange c.endpoints s e with
      | error f => simp only [ok_bind, h]; rfl
      | ok us =>
        simp only [ok_bind, h]
        cases nw with
        | false => rfl
        | true =>
          simp only [if_true]
          cases loadRange c.weights s e <;> rfl

/-- Converting the stores of a row whose values fit: the stores of the converted row. -/
theorem retype_dupActs {nlw now : Nat} {conv : W → V} (nw : Bool) : ∀ (l : List (Nat × W)) (p : Nat), p + l.length ≤ 2 ^ now →
    (∀ q ∈ l, q.1 < 2 ^ nlw) →
    (dupActs p (l.map (fun q => (q.1, wOpt nw q.2)))).map (retypeAct nlw now conv) =
      dupActs p ((l.map (fun q => (q.1, conv q.2))).map (fun q => (q.1, wOpt nw q.2)))
  | [], _, _, _ => rfl
  | a :: l, p, hp, hl => by
    have hlen : p + 1 + l.length ≤ 2 ^ now := by simp at hp; omega
    have ih := retype_dupActs (conv := conv) (nlw := nlw) (now := now) nw l (p + 1) hlen (fun q hq => hl q (List.mem_cons_of_mem _ hq))
    have h1 : narrow now p = p := narrow_lt (by simp at hp; omega)
    have h2 : narrow nlw a.1 = a.1 := narrow_lt (hl a (List.mem_cons_self ..))
    cases nw with
    | true =>
      simp only [dupActs, wOpt, if_true] at ih
      simp only [dupActs, wOpt, if_true, List.map_cons, blockActs, List.flatMap_cons, List.cons_append, List.nil_append, List.map_append, ih,
        retypeAct, h1, h2]
    | false =>
      simp only [dupActs, wOpt, Bool.false_eq_true, if_false] at ih
      simp only [dupActs, wOpt, Bool.false_eq_true, if_false, List.map_cons, blockActs, List.flatMap_cons, List.cons_append, List.nil_append,
        List.map_append, ih, retypeAct, h1, h2]

/-- The distinct entries of the rows. -/
def distinctPairs (rows : List (List (Nat × W))) : List (Nat × Nat) :=
  (List.range rows.length).flatMap (fun v => (dedupRow (rows.getD v [])).map (fun q => (v, q.1)))

theorem distinctPairs_length (rows : List (List (Nat × W))) : (distinctPairs rows).length = (rows.map dedupRow).flatten.length := by
  rw [distinctPairs, List.length_flatMap, List.length_flatten]
  congr 1
  rw [List.map_map, ← map_range_getD rows]
  apply List.map_congr_left
  intro v _
  simp

theorem distinctPairs_nodup {rows : List (List (Nat × W))} (h : ∀ v, v < rows.length →
    ((rows.getD v []).map Prod.fst).Pairwise (fun a b => ¬ b < a)) : (distinctPairs rows).Nodup := by
  rw [distinctPairs, List.Nodup, List.pairwise_flatMap]
  refine ⟨fun v hv => ?_, ?_⟩
  · have hs := dedupRow_sorted _ (h v (List.mem_range.mp hv))
    rw [List.pairwise_map] at hs ⊢
    refine hs.imp (fun {a b} hab he => ?_)
    injection he with _ he
    omega
  · refine (range_pairwise _).imp ?_
    intro a b hab x hx y hy hxy
    obtain ⟨_, _, rfl⟩ := List.mem_map.mp hx
    obtain ⟨_, _, rfl⟩ := List.mem_map.mp hy
    injection hxy with hxy
    omega

/-- All executions of `new_csr_without_dups` into other types, when the values fit. -/
theorem withoutDupsTo_all {lw nlw now T : Nat} (hT : 0 < T) {wgt nw : Bool} {wlt : W → W → Prop} {conv : W → V} {c : Csr W}
    {rows : List (List (Nat × W))} (h : IsCsr c wgt rows) (hnw : nw = true → wgt = true) {B : Nat}
    (hB : ∀ u ∈ c.endpoints, u < B) (hlw : B < 2 ^ lw) (hend : ∀ u ∈ c.endpoints, u < 2 ^ nlw)
    (hn2 : c.n < 2 ^ nlw) (hfit : Spec.OffsetsFit nlw c.n)
    (hm2 : ∀ l : List (Nat × Nat), l.Nodup → (∀ e ∈ l, e.1 < rows.length ∧ e.2 ∈ (rows.getD e.1 []).map Prod.fst) → l.length < 2 ^ now) :
    (withoutDupsTo lw nlw now T wgt nw wlt conv c).All (fun r => ∃ rows', IsCsr r.1 wgt rows' ∧ rows'.length = rows.length ∧
      r.1.n = c.n ∧ r.1.m = c.m ∧ r.1.nrows = c.nrows ∧ r.1.ncols = c.ncols ∧ r.1.offsets = c.offsets ∧
      (∀ (v : Nat) (l l' : List (Nat × W)), rows[v]? = some l → rows'[v]? = some l' →
        (l'.map Prod.fst).Perm (l.map Prod.fst) ∧ (l'.map Prod.fst).Pairwise (fun a b => ¬ b < a) ∧
        (wgt = true → l'.Perm l ∧ l'.Pairwise (fun a b => ¬ pairLt wlt b a))) ∧
      r.2.nrows = narrow nlw c.nrows ∧ r.2.ncols = narrow nlw c.ncols ∧
      IsCsr r.2 nw (rows'.map (fun l => (dedupRow l).map (fun q => (q.1, conv q.2))))) := by
  unfold withoutDupsTo
  refine R.All.bind (sortCsr_all h) (fun c1 hc1 => ?_)
  obtain ⟨rows', h1, hlen, hn, hm, hnr, hnc, ho, hwt, hrows⟩ := hc1
  have hn1lt : c1.n < 2 ^ nlw := by rw [hn]; exact hn2
  have hp1 : plusOne nlw (narrow nlw c1.n) = c1.n + 1 := by
    rw [narrow_lt hn1lt]
    exact plusOne_fit (by rw [hn]; exact hfit)
  simp only [hp1]
  have h1nw : IsCsr c1 nw rows' := ⟨h1.n, h1.m, h1.offsets, h1.endpoints, fun hw => h1.weights (hnw hw)⟩
  have hmemB : ∀ v, v < rows'.length → ∀ u ∈ (dedupRow (rows'.getD v [])).map Prod.fst, u ∈ c.endpoints := by
    intro v hv u hu
    have hr' := getD_some hv
    have hr : rows[v]? = some (rows.getD v []) := getD_some (by omega)
    obtain ⟨g1, g2, _⟩ := hrows v _ _ hr hr'
    rw [dedupRow_mem, g1.mem_iff] at hu
    rw [h.endpoints, List.map_flatten]
    exact List.mem_flatten.mpr ⟨_, List.mem_map_of_mem (List.mem_of_getElem? hr), hu⟩
  have hsorted : ∀ v, v < rows'.length → ((rows'.getD v []).map Prod.fst).Pairwise (fun a b => ¬ b < a) := by
    intro v hv
    exact (hrows v _ _ (getD_some (by omega)) (getD_some hv)).2.1
  have hbound : ∀ v, v < rows'.length → (dedupRow (rows'.getD v [])).length < 2 ^ lw := by
    intro v hv
    have := strict_length (B := B) ((dedupRow (rows'.getD v [])).map Prod.fst) 0 (dedupRow_sorted _ (hsorted v hv)) (by
      intro u hu
      exact ⟨Nat.zero_le _, hB u (hmemB v hv u hu)⟩)
    rw [List.length_map] at this
    omega
  have htotal : (rows'.map dedupRow).flatten.length < 2 ^ now := by
    rw [← distinctPairs_length]
    refine hm2 _ (distinctPairs_nodup hsorted) ?_
    intro e he
    obtain ⟨v, hv, he⟩ := List.mem_flatMap.mp he
    obtain ⟨q, hq, rfl⟩ := List.mem_map.mp he
    have hv' := List.mem_range.mp hv
    refine ⟨by show v < _; omega, ?_⟩
    show q.1 ∈ _
    obtain ⟨g1, _⟩ := hrows v _ _ (getD_some (by omega)) (getD_some hv')
    rw [← g1.mem_iff, ← dedupRow_mem]
    exact List.mem_map_of_mem hq
  let deg : Nat → Nat := fun v => (dedupRow (rows'.getD v [])).length
  have hdeg : ∀ v, v < rows'.length → dupDeg lw c1 v = .ok (deg v) := fun v hv => dupDeg_eq h1 (getD_some hv) (hbound v hv)
  have hn1 : c1.n = rows'.length := h1.n
  refine R.All.bind R.All.any (fun jd _ => ?_)
  refine R.All.bind (P := OmpDyn c1.n T) (R.All.choose (fun _ h => h)) (fun its hits => ?_)
  have hlt : ∀ {its : List (List Nat)}, OmpDyn c1.n T its → ∀ v ∈ its.flatten, v < rows'.length := by
    intro its hits v hv
    have := List.mem_range.mp (hits.all.mem_iff.mp hv)
    omega
  refine R.All.bind (P := fun t => t = its.map (fun vs => vs.map (fun v => (v, deg v))))
    (R.All.lift (mapE_nested (fun v hv => by rw [hdeg v (hlt hits v hv)]; rfl)) rfl) (fun counts hcounts => ?_)
  subst hcounts
  refine R.All.bind (P := fun d => d = alloc deg c1.n) (R.All.par (fun sched hs => ⟨_, fill_dyn hits deg hs _ (by simp), rfl⟩))
    (fun degs hdegs => ?_)
  have hnewM0 : ((its.map (fun vs => vs.map (fun v => (v, deg v)))).map (fun t => (t.map Prod.snd).sum)).sum = degs.sum := by
    rw [hdegs, alloc]
    have e : ∀ its : List (List Nat), ((its.map (fun vs => vs.map (fun v => (v, deg v)))).map (fun t => (t.map Prod.snd).sum)).sum =
        (its.flatten.map deg).sum := by
      intro its
      induction its with
      | nil => rfl
      | cons a its ih =>
        rw [List.map_cons, List.map_cons, List.sum_cons, ih, List.flatten_cons, List.map_append, List.sum_append, List.map_map]
        rfl
    rw [e]
    exact (hits.all.map deg).sum_nat
  have hdegrows : degs = (rows'.map dedupRow).map List.length := by
    rw [hdegs, alloc, hn1, List.map_map]
    exact map_range_getD rows' (fun r => (dedupRow r).length)
  have hnewlen : degs.sum = (rows'.map dedupRow).flatten.length := by rw [hdegrows, List.length_flatten]
  have hsumlt : degs.sum < 2 ^ now := by rw [hnewlen]; exact htotal
  have hnewM : narrow now ((its.map (fun vs => vs.map (fun v => (v, deg v)))).map (fun t => (t.map Prod.snd).sum)).sum = degs.sum := by
    rw [hnewM0, narrow_lt hsumlt]
  have hdl : degs.length = c1.n := by rw [hdegs]; simp
  refine R.All.bind R.All.any (fun j _ => ?_)
  refine R.All.bind R.All.any (fun js _ => ?_)
  refine R.All.bind (P := fun s => s = (List.range T).map (fun tid => (slice degs c1.n T tid).sum)) (R.All.par (fun sched hs => ?_))
    (fun starts hstarts => ?_)
  · refine ⟨_, run_fill (vs := (List.range T).map (fun tid => (slice degs c1.n T tid).sum)) ?_ _ (by simp), rfl⟩
    refine hs.perm.trans (List.Perm.of_eq ?_)
    rw [← range_eq_blockActs (fun tid => (slice degs c1.n T tid).sum)]
    induction List.range T with
    | nil => rfl
    | cons a l ih => simp [ih]
  subst hstarts
  refine R.All.bind (P := fun o => o = offsetsOf degs) (R.All.par (fun sched hs => ?_)) (fun offs hoffs => ?_)
  · rw [hnewM, offsetThreadsTo_eq hsumlt hn1lt] at hs
    exact ⟨_, run_offsets hT hdl hs _ (by simp), rfl⟩
  subst hoffs
  let D : List (List (Nat × V)) := rows'.map (fun l => (dedupRow l).map (fun q => (q.1, conv q.2)))
  have hDlen : ∀ v, ((rows'.map dedupRow).take v).flatten.length = (D.take v).flatten.length := by
    intro v
    show _ = ((rows'.map _).take v).flatten.length
    rw [← List.map_take, ← List.map_take, List.length_flatten, List.length_flatten, List.map_map, List.map_map]
    congr 1
    apply List.map_congr_left
    intro l _
    simp
  have hDtot : (rows'.map dedupRow).flatten.length = D.flatten.length := by
    have := hDlen rows'.length
    rwa [List.take_of_length_le (by simp), List.take_of_length_le (by simp [D])] at this
  have hDget : ∀ v, v < rows'.length → D[v]? = some ((dedupRow (rows'.getD v [])).map (fun q => (q.1, conv q.2))) := by
    intro v hv
    show (rows'.map _)[v]? = _
    rw [List.getElem?_map, getD_some hv]; rfl
  have hoff : ∀ v, v ≤ rows'.length → load (offsetsOf degs) v = .ok (D.take v).flatten.length := by
    intro v hv
    rw [hdegrows, ← hDlen]
    exact load_ok (by rw [offsetsOf_getElem? _ (by simpa using hv), take_sum_length])
  have hpos : ∀ v, v < rows'.length → (D.take (v + 1)).flatten.length =
      (D.take v).flatten.length + ((dedupRow (rows'.getD v [])).map (fun q => (q.1, conv q.2))).length := by
    intro v hv
    rw [flatten_take_succ D (hDget v hv), List.length_append]
  have htake : ∀ v, (D.take v).flatten.length ≤ D.flatten.length := by
    intro v
    conv => rhs; rw [← List.take_append_drop v D]
    rw [List.flatten_append, List.length_append]
    omega
  refine R.All.bind (P := OmpDyn c1.n T) (R.All.choose (fun _ h => h)) (fun its2 hits2 => ?_)
  refine R.All.bind (P := fun t => t = its2.map (fun vs => vs.map (fun v =>
      dupActs (D.take v).flatten.length (((dedupRow (rows'.getD v [])).map (fun q => (q.1, conv q.2))).map (fun q => (q.1, wOpt nw q.2))))))
    (R.All.lift (mapE_nested (fun v hv => by
      have hv' := hlt hits2 v hv
      rw [dupCopyTo_eq (by omega), dupCopy_eq h1nw (getD_some hv') (hoff v (by omega)), ok_bind, retype_dupActs nw _ _ ?_ ?_]
      · have a1 := hpos v hv'
        have a2 := htake (v + 1)
        rw [List.length_map] at a1
        rw [hDtot] at htotal
        omega
      · intro q hq
        exact hend _ (hmemB v hv' _ (List.mem_map_of_mem hq)))) rfl) (fun th hth => ?_)
  subst hth
  have hb : ∀ {α : Type} (f : Nat × V → α), (List.range rows'.length).flatMap (fun v =>
      blockActs (D.take v).flatten.length (((dedupRow (rows'.getD v [])).map (fun q => (q.1, conv q.2))).map f)) =
      blockActs 0 (D.flatten.map f) := by
    intro α f
    have := (blocks_at (fun v => (D.take v).flatten.length)
      (fun v => ((dedupRow (rows'.getD v [])).map (fun q => (q.1, conv q.2))).map f)
      rows'.length (by simp) (by intro v hv; rw [List.length_map]; exact hpos v hv)).1
    rw [this, List.flatMap_def, List.map_flatten]
    congr 2
    show _ = (rows'.map _).map _
    rw [List.map_map]
    exact map_range_getD rows' (fun r => ((dedupRow r).map (fun q => (q.1, conv q.2))).map f)
  refine R.All.bind (P := fun s => s.1 = D.flatten.map Prod.fst ∧
      (nw = true → s.2 = D.flatten.map Prod.snd)) (R.All.par (fun sched hs => ?_)) (fun s hs => ?_)
  · have hp := hs.perm
    rw [flatten_threads] at hp
    have hp2 := hp.trans (hits2.all.flatMap_right _)
    rw [hn1] at hp2
    rw [hnewM]
    have hl := hp2.filterMap Sum.getLeft?
    have hr := hp2.filterMap Sum.getRight?
    rw [List.filterMap_flatMap] at hl hr
    have e1 : (sched.filterMap Sum.getLeft?).Perm (blockActs 0 (D.flatten.map Prod.fst)) := by
      refine hl.trans (List.Perm.of_eq ?_)
      rw [← hb]
      exact flatMap_congr' (fun v _ => copy_lefts nw _ _)
    have e2 : (sched.filterMap Sum.getRight?).Perm (if nw then blockActs 0 (D.flatten.map Prod.snd) else []) := by
      refine hr.trans (List.Perm.of_eq ?_)
      cases hw : nw with
      | true =>
        rw [if_pos rfl, ← hb]
        refine flatMap_congr' (fun v _ => ?_)
        have := copy_rights true ((dedupRow (rows'.getD v [])).map (fun q => (q.1, conv q.2))) (D.take v).flatten.length
        rw [if_pos rfl] at this
        exact this
      | false =>
        rw [if_neg (by simp), List.flatMap_eq_nil_iff]
        intro v _
        have := copy_rights false ((dedupRow (rows'.getD v [])).map (fun q => (q.1, conv q.2))) (D.take v).flatten.length
        rw [if_neg (by simp)] at this
        exact this
    refine ⟨_, run_sum _ _ _ _ _ _ (if nw then D.flatten.map Prod.snd else [])
      (run_fill e1 _ (by rw [List.length_map, alloc_length, hnewlen, hDtot])) ?_, rfl, ?_⟩
    · cases hw : nw with
      | true =>
        rw [hw, if_pos rfl] at e2
        exact run_fill e2 _ (by rw [List.length_map, if_pos rfl, alloc_length, hnewlen, hDtot])
      | false =>
        rw [hw, if_neg (by simp)] at e2
        rw [e2.eq_nil]
        rfl
    · intro hw; simp [hw]
  refine R.All.pure ⟨rows', h1, hlen, hn, hm, hnr, hnc, ho, hrows, by show narrow nlw c1.nrows = _; rw [hnr],
    by show narrow nlw c1.ncols = _; rw [hnc], ?_⟩
  refine ⟨?_, ?_, ?_, hs.1, hs.2⟩
  · show narrow nlw c1.n = _
    rw [List.length_map, narrow_lt hn1lt]; exact hn1
  · show narrow now _ = D.flatten.length
    rw [← hDtot, ← hnewlen]; exact hnewM
  · show offsetsOf degs = _
    rw [hdegrows, List.map_map, List.map_map]
    congr 1
    apply List.map_congr_left
    intro l _
    simp

end Pigo
