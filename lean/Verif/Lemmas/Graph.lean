import Verif.Model.Graph
import Verif.Lemmas.CsrDedup
import Verif.Lemmas.CsrOps

/-!
# Copies and graphs
-/

namespace Pigo

variable {W : Type} {α : Type}

theorem copyAct_eq {src : List α} {i : Nat} {v : α} (h : src[i]? = some v) (dst : List α) :
    copyAct src i dst = storeAct (i, v) dst := by
  rw [copyAct, load_ok h, ok_bind]; rfl

theorem run_copy_eq {src : List α} (d : α) (sched : List Nat) (h : ∀ i ∈ sched, i < src.length) : ∀ dst,
    runActs (copyAct src) sched dst = runActs storeAct (sched.map (fun i => (i, src.getD i d))) dst := by
  induction sched with
  | nil => intro dst; rfl
  | cons i sched ih =>
    intro dst
    have hi := h i (by simp)
    rw [List.map_cons, runActs, runActs, copyAct_eq (v := src.getD i d) (by simp [hi])]
    cases hs : storeAct (i, src.getD i d) dst with
    | error e => rfl
    | ok a => rw [ok_bind, ok_bind]; exact ih (fun j hj => h j (List.mem_cons_of_mem _ hj)) a

theorem map_range_getD' (src : List α) (d : α) : (List.range src.length).map (fun i => src.getD i d) = src := by
  apply List.ext_getElem?
  intro i
  by_cases h : i < src.length
  · simp [h]
  · simp [h]

theorem run_copy {src dst : List α} {sched : List Nat} (hp : sched.Perm (List.range src.length))
    (hl : dst.length = src.length) : runActs (copyAct src) sched dst = .ok src := by
  cases src with
  | nil =>
    have : sched = [] := by simpa using hp
    subst this
    have : dst = [] := by simpa using hl
    subst this; rfl
  | cons d rest =>
    rw [run_copy_eq d sched (fun i hi => List.mem_range.mp (hp.mem_iff.mp hi))]
    have h2 := hp.map (fun i => (i, (d :: rest).getD i d))
    rw [range_eq_blockActs, map_range_getD'] at h2
    exact run_fill h2 dst hl.symm

theorem copyLoop_all {T k : Nat} {src dst : List α} (hs : src.length = k) (hd : dst.length = k) :
    (copyLoop T k src dst).All (fun a => a = src) := by
  subst hs
  refine R.All.bind (R.All.choose (fun its h => h)) (fun its hits => R.All.par (fun sched hsch => ?_))
  exact ⟨src, run_copy (hsch.perm.trans hits.all) hd, rfl⟩

theorem copyLoop_any {T k : Nat} (hT : 0 < T) (src dst : List α) : (copyLoop T k src dst).Any :=
  R.Any.bind (R.Any.choose (OmpFor.one _ _ hT)) (fun _ => R.Any.par _ _ _)

theorem filterMap_copyIter_left (l : List Nat) : (l.flatMap copyIter).filterMap Sum.getLeft? = l := by
  induction l with
  | nil => rfl
  | cons a l ih => rw [List.flatMap_cons, List.filterMap_append, ih]; rfl

theorem filterMap_copyIter_right (l : List Nat) : (l.flatMap copyIter).filterMap Sum.getRight? = l := by
  induction l with
  | nil => rfl
  | cons a l ih => rw [List.flatMap_cons, List.filterMap_append, ih]; rfl

theorem copyIter_flatten (its : List (List Nat)) : (its.map (fun es => es.flatMap copyIter)).flatten = its.flatten.flatMap copyIter := by
  induction its with
  | nil => rfl
  | cons a its ih => simp [ih]

theorem copyWeights_all {T m : Nat} {wgt : Bool} {w : List W} (hw : wgt = true → w.length = m) (j : Nat → W) :
    (copyWeights T wgt m w j).All (fun r => r = if wgt then w else []) := by
  cases wgt with
  | true => exact copyLoop_all (hw rfl) (by simp)
  | false => exact R.All.pure rfl

theorem copyWeights_any {T : Nat} (hT : 0 < T) (m : Nat) (wgt : Bool) (w : List W) (j : Nat → W) : (copyWeights T wgt m w j).Any := by
  cases wgt with
  | true => exact copyLoop_any hT _ _
  | false => exact R.Any.pure _

theorem copyCoo_all {T : Nat} {wgt : Bool} {c : Coo W} (hx : c.x.length = c.m) (hy : c.y.length = c.m)
    (hw : wgt = true → c.w.length = c.m) :
    (copyCoo T wgt c).All (fun r => r = { c with w := if wgt then c.w else [] }) := by
  unfold copyCoo
  refine R.All.bind R.All.any (fun j _ => R.All.bind (R.All.choose (fun its h => h)) (fun its hits => ?_))
  refine R.All.bind (P := fun p => p = (c.x, c.y)) (R.All.par (fun sched hsch => ?_)) (fun p hp => ?_)
  · have hperm := hsch.perm
    rw [copyIter_flatten] at hperm
    have hl := hperm.filterMap Sum.getLeft?
    have hr := hperm.filterMap Sum.getRight?
    rw [filterMap_copyIter_left] at hl
    rw [filterMap_copyIter_right] at hr
    refine ⟨_, run_sum _ _ _ _ _ _ _ (run_copy (src := c.x) ?_ (by simp [hx])) (run_copy (src := c.y) ?_ (by simp [hy])), rfl⟩
    · rw [hx]; exact hl.trans hits.all
    · rw [hy]; exact hr.trans hits.all
  · subst hp
    exact R.All.bind (copyWeights_all hw _) (fun w hwe => R.All.pure (by subst hwe; rfl))

theorem copyCoo_any [Nonempty W] {T : Nat} (hT : 0 < T) (wgt : Bool) (c : Coo W) : (copyCoo T wgt c).Any := by
  obtain ⟨d⟩ := ‹Nonempty W›
  have : Nonempty (Junk W) := ⟨⟨fun _ => 0, fun _ => 0, fun _ => d⟩⟩
  refine R.Any.bind R.Any.any (fun _ => R.Any.bind (R.Any.choose (OmpFor.one _ _ hT)) (fun _ => R.Any.bind (R.Any.par _ _ _) (fun p => ?_)))
  exact R.Any.bind (copyWeights_any hT _ _ _ _) (fun _ => R.Any.pure _)

theorem copyTensor_all {ow T : Nat} {wgt : Bool} {t : Tensor W} (hc : t.c.length = tensorLen ow t) (hn : tensorLen ow t < 2 ^ ow)
    (hw : wgt = true → t.w.length = t.m) :
    (copyTensor ow T wgt t).All (fun r => r = { t with w := if wgt then t.w else [] }) := by
  unfold copyTensor
  refine R.All.bind (R.All.lift (a := ()) (Q := fun _ => True) (if_neg (by omega)) trivial) (fun _ _ => ?_)
  refine R.All.bind R.All.any (fun jc _ => R.All.bind R.All.any (fun jw _ => ?_))
  refine R.All.bind (copyLoop_all hc (by simp)) (fun c he => ?_)
  subst he
  exact R.All.bind (copyWeights_all hw _) (fun w hwe => R.All.pure (by subst hwe; rfl))

/-- Swap the labels of an entry. -/
def swapE (e : Nat × Nat × W) : Nat × Nat × W := (e.2.1, e.1, e.2.2)

theorem transpose_holds {c : Coo W} {wgt : Bool} {es : List (Nat × Nat × W)} (h : Holds c wgt es) :
    Holds (transposeCoo c) wgt (es.map swapE) where
  m := by rw [List.length_map]; exact h.m
  x := by rw [List.map_map]; exact h.y
  y := by rw [List.map_map]; exact h.x
  w := fun hw => by rw [List.map_map]; exact h.w hw

theorem copy_holds {c : Coo W} {wgt : Bool} {es : List (Nat × Nat × W)} (h : Holds c wgt es) :
    Holds { c with w := if wgt then c.w else [] } wgt es where
  m := h.m
  x := h.x
  y := h.y
  w := fun hw => by subst hw; exact h.w rfl

theorem holds_lengths {c : Coo W} {wgt : Bool} {es : List (Nat × Nat × W)} (h : Holds c wgt es) :
    c.x.length = c.m ∧ c.y.length = c.m ∧ (wgt = true → c.w.length = c.m) := by
  rw [h.x, h.y, h.m]
  refine ⟨by simp, by simp, fun hw => by rw [h.w hw]; simp⟩

/-- What a CSR built from entries `es` is. -/
def FromEntries (n : Nat) (c : Coo W) (wgt : Bool) (es : List (Nat × Nat × W)) (r : Csr W) : Prop :=
  r.n = n ∧ r.m = c.m ∧ r.nrows = c.nrows ∧ r.ncols = c.ncols ∧
    ∃ es' : List (Nat × Nat × W), es'.Perm es ∧ IsCsr r wgt (groupRows n es')

theorem twoGraphs_all {lw ow T : Nat} (hT : 0 < T) {wgt : Bool} {c : Coo W} {es : List (Nat × Nat × W)} (hc : Holds c wgt es)
    (hlab : ∀ e ∈ es, e.1 < c.n ∧ e.2.1 < c.n) (hm : c.m < 2 ^ ow) (hn : Spec.OffsetsFit lw c.n) :
    (fromCoo lw ow T wgt c).All (fun g => FromEntries c.n c wgt es g.outG ∧ FromEntries c.n c wgt (es.map swapE) g.inG) := by
  obtain ⟨hx, hy, hw⟩ := holds_lengths hc
  refine R.All.bind (copyCoo_all hx hy hw) (fun cp hcp => ?_)
  have h1 : Holds (transposeCoo cp) wgt (es.map swapE) := by rw [hcp]; exact transpose_holds (copy_holds hc)
  refine R.All.bind (convertCoo_all hT h1 (by
      intro e he
      obtain ⟨e', he', rfl⟩ := List.mem_map.mp he
      rw [hcp]; exact (hlab e' he').2) (by rw [hcp]; exact hm) (by rw [hcp]; exact hn)) (fun i hi => ?_)
  refine R.All.bind (convertCoo_all hT hc (fun e he => (hlab e he).1) hm hn) (fun o ho => R.All.pure ?_)
  obtain ⟨a1, a2, a3, es1, a4, _, a5⟩ := ho
  obtain ⟨b1, b2, b3, es2, b4, _, b5⟩ := hi
  rw [hcp] at b1 b2 b3 b5
  refine ⟨⟨?_, a1, a2, a3, es1, a4, a5⟩, ⟨?_, b1, b2, b3, es2, b4, b5⟩⟩
  · rw [a5.n]; simp [groupRows]
  · rw [b5.n]; simp [groupRows, transposeCoo]

theorem fromCoo_any [Nonempty W] {lw ow T : Nat} (hT : 0 < T) (wgt : Bool) (c : Coo W) : (fromCoo lw ow T wgt c).Any :=
  R.Any.bind (copyCoo_any hT wgt c) (fun _ => R.Any.bind (convertCoo_any hT wgt _) (fun _ =>
    R.Any.bind (convertCoo_any hT wgt _) (fun _ => R.Any.pure _)))

theorem matrixFromCoo_eq {lw ow T : Nat} {wgt : Bool} {c : Coo W} {Q : Csr W → Csr W → Prop}
    (h : (fromCoo lw ow T wgt c).All (fun g => Q g.outG g.inG)) :
    (matrixFromCoo lw ow T wgt c).All (fun a => Q a.csr a.csc) := by
  rintro out ⟨o, ho, hk⟩
  cases o with
  | error f =>
    obtain ⟨_, h', _⟩ := h (.error f) ⟨_, ho, rfl⟩
    cases h'
  | ok cp =>
    obtain ⟨o2, ho2, hk2⟩ := hk
    cases o2 with
    | error f =>
      obtain ⟨_, h', _⟩ := h (.error f) ⟨_, ho, _, ho2, rfl⟩
      cases h'
    | ok i =>
      obtain ⟨o3, ho3, hk3⟩ := hk2
      cases o3 with
      | error f =>
        obtain ⟨_, h', _⟩ := h (.error f) ⟨_, ho, _, ho2, _, ho3, rfl⟩
        cases h'
      | ok o =>
        obtain ⟨g, h', hq⟩ := h (.ok ⟨i, o⟩) ⟨_, ho, _, ho2, _, ho3, rfl⟩
        injection h' with h'
        subst h'
        exact ⟨_, hk3, hq⟩

/-! ## Iteration -/

theorem iterate_ok {ow : Nat} {ep : List Nat} (hb : ep.length < 2 ^ ow) : ∀ (k fuel pos : Nat), k < fuel → pos + k ≤ ep.length →
    iterate ow ep fuel pos (pos + k) = .ok ((ep.drop pos).take k) := by
  intro k
  induction k with
  | zero =>
    intro fuel pos hf hp
    cases fuel with
    | zero => omega
    | succ f => simp [iterate]
  | succ k ih =>
    intro fuel pos hf hp
    cases fuel with
    | zero => omega
    | succ f =>
      have hlt : pos < ep.length := by omega
      rw [iterate, if_neg (by omega), load_ok (List.getElem?_eq_getElem hlt), ok_bind, Nat.mod_eq_of_lt (by omega)]
      have := ih f (pos + 1) (by omega) (by omega)
      rw [show pos + 1 + k = pos + (k + 1) from by omega] at this
      rw [this, ok_bind, List.drop_eq_getElem_cons hlt, List.take_succ_cons]

end Pigo
