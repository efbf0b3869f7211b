import Verif.Model.SignedGraphs
import Verif.Lemmas.SignedSmall3
import Verif.Lemmas.Graph
import Verif.Lemmas.CsrDedup

/-!
# Graphs, matrices, neighbors and duplicate removal with signed types, compared with the unsigned ones
-/

namespace Pigo

variable {W : Type}

theorem sFromCoo_sim (lw ow T : Nat) (wgt : Bool) (coo : Coo W) : RSim (sFromCoo lw ow T wgt coo) (fromCoo lw ow T wgt coo) := by
  unfold sFromCoo fromCoo
  exact RSim.same (fun _ => RSim.bind (sConvertCoo_sim _ _ _ _ _) (fun _ => RSim.bind (sConvertCoo_sim _ _ _ _ _) (fun _ => RSim.refl _)))

theorem sMatrixFromCoo_sim (lw ow T : Nat) (wgt : Bool) (coo : Coo W) : RSim (sMatrixFromCoo lw ow T wgt coo) (matrixFromCoo lw ow T wgt coo) := by
  unfold sMatrixFromCoo matrixFromCoo
  exact RSim.same (fun _ => RSim.bind (sConvertCoo_sim _ _ _ _ _) (fun _ => RSim.bind (sConvertCoo_sim _ _ _ _ _) (fun _ => RSim.refl _)))

theorem copyCoo_dims {T : Nat} {wgt : Bool} {c c' : Coo W} (h : (copyCoo T wgt c).Out (.ok c')) : c'.n = c.n ∧ c'.m = c.m := by
  obtain ⟨o, _, h⟩ := h
  cases o with
  | error f => cases h
  | ok j =>
  obtain ⟨o, _, h⟩ := h
  cases o with
  | error f => cases h
  | ok its =>
  obtain ⟨o, _, h⟩ := h
  cases o with
  | error f => cases h
  | ok xy =>
  obtain ⟨o, _, h⟩ := h
  cases o with
  | error f => cases h
  | ok w => cases h; exact ⟨rfl, rfl⟩

theorem sFromCoo_small {lw ow : Nat} (T : Nat) (wgt : Bool) (c : Coo W) (hn : c.n + 1 < 2 ^ (lw - 1)) (hm : c.m < 2 ^ (ow - 1)) :
    sFromCoo lw ow T wgt c = fromCoo lw ow T wgt c := by
  unfold sFromCoo fromCoo
  refine R.bind_congrOut (fun c' hc => ?_)
  obtain ⟨h1, h2⟩ := copyCoo_dims hc
  rw [sConvertCoo_small T wgt (transposeCoo c') (by rw [transposeCoo, h1]; exact hn) (by rw [transposeCoo, h2]; exact hm),
    sConvertCoo_small T wgt c hn hm]

theorem sMatrixFromCoo_small {lw ow : Nat} (T : Nat) (wgt : Bool) (c : Coo W) (hn : c.n + 1 < 2 ^ (lw - 1)) (hm : c.m < 2 ^ (ow - 1)) :
    sMatrixFromCoo lw ow T wgt c = matrixFromCoo lw ow T wgt c := by
  unfold sMatrixFromCoo matrixFromCoo
  refine R.bind_congrOut (fun c' hc => ?_)
  obtain ⟨h1, h2⟩ := copyCoo_dims hc
  rw [sConvertCoo_small T wgt (transposeCoo c') (by rw [transposeCoo, h1]; exact hn) (by rw [transposeCoo, h2]; exact hm),
    sConvertCoo_small T wgt c hn hm]

/-! ## removing duplicates -/

theorem sDupDeg_sim (lw : Nat) (c : Csr W) (v : Nat) : OvSim (sDupDeg lw c v) (dupDeg lw c v) := by
  unfold sDupDeg dupDeg
  refine OvSim.same (fun s => OvSim.same (fun e => OvSim.same (fun us => ?_)))
  cases us with
  | nil => exact .refl _
  | cons u us => exact wrapS_sim lw _

theorem sWithoutDups_sim (lw ow T : Nat) (wgt : Bool) (wlt : W → W → Prop) (c : Csr W) :
    RSim (sWithoutDups lw ow T wgt wlt c) (withoutDups lw T wgt wlt c) := by
  unfold sWithoutDups withoutDups
  refine RSim.same (fun c => RSim.same (fun jd => RSim.same (fun its => RSim.bind (RSim.lift (mapE_sim (fun vs => mapE_sim (fun v =>
    (sDupDeg_sim lw c v).bind' (fun _ => .refl _)) vs) its)) (fun counts => RSim.same (fun degs => RSim.wrapS (fun _ => RSim.wrapS (fun h => ?_)))))))
  rw [plusOne_small h]
  exact RSim.refl _


theorem sDupDeg_eq {c : Csr W} {wgt : Bool} {rows : List (List (Nat × W))} (h : IsCsr c wgt rows) {lw v : Nat} {r : List (Nat × W)}
    (hr : rows[v]? = some r) (hb : (dedupRow r).length < 2 ^ (lw - 1)) : sDupDeg lw c v = .ok (dedupRow r).length := by
  obtain ⟨h1, h2, h3, _⟩ := h.load_row hr
  unfold sDupDeg
  rw [h1, ok_bind, h2, ok_bind, h3, ok_bind]
  cases r with
  | nil => rfl
  | cons p r =>
    simp only [List.map_cons, countRuns_eq, dedupRow, List.length_cons] at hb ⊢
    rw [wrapS_lt (by omega), Nat.add_comm]

theorem dedupRow_length_le : ∀ (r : List (Nat × W)), (dedupRow r).length ≤ r.length
  | [] => Nat.le_refl _
  | p :: r => by
    have h : ∀ (r : List (Nat × W)) (q : Nat), (heads q r).length ≤ r.length := by
      intro r
      induction r with
      | nil => intro q; exact Nat.le_refl _
      | cons a r ih =>
        intro q
        simp only [heads]
        split
        · exact Nat.succ_le_succ (ih a.1)
        · exact Nat.le_succ_of_le (ih q)
    exact Nat.succ_le_succ (h r p.1)

theorem sWithoutDups_small {lw ow : Nat} (T : Nat) {wgt : Bool} (wlt : W → W → Prop) {c : Csr W} {rows : List (List (Nat × W))}
    (h : IsCsr c wgt rows) (hl : ∀ u ∈ c.endpoints, u + 1 < 2 ^ (lw - 1)) (hn : c.n + 1 < 2 ^ (lw - 1)) (hm : c.m < 2 ^ (ow - 1)) :
    sWithoutDups lw ow T wgt wlt c = withoutDups lw T wgt wlt c := by
  unfold sWithoutDups withoutDups
  refine R.bind_congrOut (fun c1 hc1 => ?_)
  obtain ⟨_, hc, rows', h1, hlen, hn1, hm1, hnr, hnc, ho, hwt, hrows⟩ := sortCsr_all (T := T) (wlt := wlt) h _ hc1
  cases hc
  have hbound : ∀ v, v < rows'.length → (dedupRow (rows'.getD v [])).length < 2 ^ (lw - 1) := by
    intro v hv
    have hr' := getD_some hv
    have hr : rows[v]? = some (rows.getD v []) := getD_some (by omega)
    obtain ⟨g1, g2, _⟩ := hrows v _ _ hr hr'
    have := strict_length (B := 2 ^ (lw - 1) - 1) ((dedupRow (rows'.getD v [])).map Prod.fst) 0 (dedupRow_sorted _ g2) (by
      intro u hu
      refine ⟨Nat.zero_le _, ?_⟩
      rw [dedupRow_mem, g1.mem_iff] at hu
      have := hl u (by
        rw [h.endpoints, List.map_flatten]
        exact List.mem_flatten.mpr ⟨_, List.mem_map_of_mem (List.mem_of_getElem? hr), hu⟩)
      omega)
    rw [List.length_map] at this
    omega
  let deg : Nat → Nat := fun v => (dedupRow (rows'.getD v [])).length
  have hdeg : ∀ v, v < rows'.length → sDupDeg lw c1 v = .ok (deg v) := fun v hv => sDupDeg_eq h1 (getD_some hv) (hbound v hv)
  have hdegU : ∀ v, v < rows'.length → dupDeg lw c1 v = .ok (deg v) := fun v hv =>
    dupDeg_eq h1 (getD_some hv) (Nat.lt_of_lt_of_le (hbound v hv) (pow_pred_le lw))
  have hrn : c1.n = rows'.length := h1.n
  refine R.bind_congrOut (fun jd _ => R.bind_congrOut (fun its hits => ?_))
  have hits : OmpDyn c1.n T its := by
    obtain ⟨a, hh, ha⟩ := hits
    cases ha; exact hh
  have hlt : ∀ vs ∈ its, ∀ v ∈ vs, v < rows'.length := by
    intro vs hvs v hv
    have := List.mem_range.mp (hits.all.mem_iff.mp (List.mem_flatten.mpr ⟨vs, hvs, hv⟩))
    omega
  have e1 : mapE (fun vs => mapE (fun v => sDupDeg lw c1 v >>= fun d => .ok (v, d)) vs) its =
      .ok (its.map (fun vs => vs.map (fun v => (v, deg v)))) :=
    mapE_nested (fun v hv => by
      obtain ⟨vs, h1, h2⟩ := List.mem_flatten.mp hv
      rw [hdeg v (hlt vs h1 v h2)]; rfl)
  have e2 : mapE (fun vs => mapE (fun v => dupDeg lw c1 v >>= fun d => .ok (v, d)) vs) its =
      .ok (its.map (fun vs => vs.map (fun v => (v, deg v)))) :=
    mapE_nested (fun v hv => by
      obtain ⟨vs, h1, h2⟩ := List.mem_flatten.mp hv
      rw [hdegU v (hlt vs h1 v h2)]; rfl)
  rw [e1, e2, liftOk, liftOk]
  have hnewM : ((its.map (fun vs => vs.map (fun v => (v, deg v)))).map (fun t => (t.map Prod.snd).sum)).sum < 2 ^ (ow - 1) := by
    have e : ∀ its : List (List Nat), ((its.map (fun vs => vs.map (fun v => (v, deg v)))).map (fun t => (t.map Prod.snd).sum)).sum =
        (its.flatten.map deg).sum := by
      intro its
      induction its with
      | nil => rfl
      | cons a its ih =>
        rw [List.map_cons, List.map_cons, List.sum_cons, ih, List.flatten_cons, List.map_append, List.sum_append, List.map_map]
        rfl
    rw [e, (hits.all.map deg).sum_nat, hrn]
    have e3 : (List.range rows'.length).map deg = rows'.map (fun r => (dedupRow r).length) :=
      map_range_getD rows' (fun r => (dedupRow r).length)
    rw [e3]
    have e4 : ∀ l : List (List (Nat × W)), (l.map (fun r => (dedupRow r).length)).sum ≤ l.flatten.length := by
      intro l
      induction l with
      | nil => exact Nat.le_refl _
      | cons a l ih =>
        rw [List.map_cons, List.sum_cons, List.flatten_cons, List.length_append]
        have := dedupRow_length_le a
        omega
    have := e4 rows'
    rw [← h1.m, hm1] at this
    omega
  rw [wrapS_lt hnewM]
  have hk : c1.n + 1 < 2 ^ (lw - 1) := by rw [hn1]; exact hn
  refine R.bind_congrOut (fun degs _ => ?_)
  rw [liftOk, wrapS_lt hk, liftOk, plusOne_small hk]

/-! ## neighbors -/

theorem sIterate_sim {ow : Nat} (ep : List Nat) : ∀ (fuel pos stop : Nat), OvSim (sIterate ow ep fuel pos stop) (iterate ow ep fuel pos stop)
  | 0, _, _ => .refl _
  | fuel + 1, pos, stop => by
    unfold sIterate iterate
    split
    · exact .refl _
    · refine OvSim.same (fun v => OvSim.wrapS (fun _ h => ?_))
      rw [h]
      exact (sIterate_sim ep fuel (pos + 1) stop).bind' (fun _ => .refl _)

theorem sIterate_ok {ow : Nat} {ep : List Nat} (hb : ep.length < 2 ^ (ow - 1)) : ∀ (k fuel pos : Nat), k < fuel → pos + k ≤ ep.length →
    sIterate ow ep fuel pos (pos + k) = .ok ((ep.drop pos).take k) := by
  intro k
  induction k with
  | zero =>
    intro fuel pos hf hp
    cases fuel with
    | zero => omega
    | succ f => simp [sIterate]
  | succ k ih =>
    intro fuel pos hf hp
    cases fuel with
    | zero => omega
    | succ f =>
      have hlt : pos < ep.length := by omega
      rw [sIterate, if_neg (by omega), load_ok (List.getElem?_eq_getElem hlt), ok_bind, wrapS_lt (by omega), ok_bind,
        show pos + (k + 1) = pos + 1 + k from by omega, ih f (pos + 1) (by omega) (by omega), ok_bind,
        List.drop_eq_getElem_cons hlt, List.take_succ_cons]

end Pigo
