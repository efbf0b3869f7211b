import Verif.Lemmas.SignedSmall2
import Verif.Lemmas.CsrConvert
import Verif.Lemmas.Loose

/-!
# Signed types do not overflow on files without large numbers: conversions
-/

namespace Pigo

variable {W : Type} {α β S : Type}

/-! ## COO to CSR -/

theorem zeroPhase_all {n T : Nat} {its : List (List Nat)} (h : OmpFor n T its) (ja : Nat → Nat) :
    (R.par storeAct (its.map (fun vs => vs.map (fun v => (v, 0)))) (alloc ja n)).All (fun all => all = alloc (fun _ => 0) n) := by
  refine R.All.par (fun sched hs => ?_)
  refine ⟨_, run_fill (vs := alloc (fun _ => 0) n) ?_ _ (by simp), rfl⟩
  refine hs.perm.trans ?_
  have e : (its.map (fun vs => vs.map (fun v => (v, 0)))).flatten = its.flatten.map (fun v => (v, 0)) := by
    rw [List.map_flatten]
  rw [e]
  refine (h.all.map _).trans (List.Perm.of_eq ?_)
  exact range_eq_blockActs (fun _ => 0) n

/-- Counting no more than `2^(ow-1) - 1` entries does not overflow the signed type. -/
theorem runInc_small {ow : Nat} (x : List Nat) : ∀ (sched degs : List Nat) (b : Nat), (∀ d ∈ degs, d ≤ b) → b + sched.length < 2 ^ (ow - 1) →
    runActs (incAct (ow - 1) x) sched degs = runActs (incAct ow x) sched degs
  | [], _, _, _, _ => rfl
  | e :: sched, degs, b, hd, hb => by
    simp only [List.length_cons] at hb
    have key : incAct (ow - 1) x e degs = incAct ow x e degs ∧ ∀ degs', incAct ow x e degs = .ok degs' → ∀ d ∈ degs', d ≤ b + 1 := by
      unfold incAct
      refine ⟨?_, ?_⟩
      · cases load x e with
        | error f => rfl
        | ok v =>
          rw [ok_bind, ok_bind]
          unfold load
          cases hg : degs[v]? with
          | none => rfl
          | some d =>
            have := hd d (List.mem_of_getElem? hg)
            simp only [ok_bind]
            have hp := pow_pred_le ow
            rw [if_pos (by omega), if_pos (by omega)]
      · intro degs' h'
        obtain ⟨v, _, h'⟩ := bind_okS h'
        obtain ⟨d, hl, h'⟩ := bind_okS h'
        have hdm : d ≤ b := by
          unfold load at hl
          cases hg : degs[v]? with
          | none => rw [hg] at hl; cases hl
          | some d' => rw [hg] at hl; cases hl; exact hd _ (List.mem_of_getElem? hg)
        split at h'
        · unfold store at h'
          split at h'
          · cases h'
            intro y hy
            rcases List.mem_or_eq_of_mem_set hy with h | h
            · have := hd y h; omega
            · omega
          · cases h'
        · cases h'
    simp only [runActs]
    rw [key.1]
    cases hs : incAct ow x e degs with
    | error f => rfl
    | ok degs' => exact runInc_small x sched degs' (b + 1) (key.2 degs' hs) (by omega)

theorem countDegrees_small {ow m : Nat} (T n : Nat) (x : List Nat) (hm : m < 2 ^ (ow - 1)) :
    countDegrees (ow - 1) T n m x = countDegrees ow T n m x := by
  unfold countDegrees
  refine R.bind_congrOut (fun _ _ => R.bind_congrOut (fun _ _ => R.bind_congrOut (fun ja _ => R.bind_congrOut (fun its0 h0 => ?_))))
  have hits : OmpFor n T its0 := by
    obtain ⟨a, hh, ha⟩ := h0
    cases ha; exact hh
  refine R.bind_congrOut (fun all hall => ?_)
  obtain ⟨a, ha, hz⟩ := zeroPhase_all hits ja _ hall
  cases ha
  subst hz
  refine R.bind_congrOut (fun its1 h1 => ?_)
  have hits1 : OmpFor m T its1 := by
    obtain ⟨a, hh, ha⟩ := h1
    cases ha; exact hh
  congr 1
  funext out
  have hrun : ∀ sched, Interleave its1 sched → runActs (incAct (ow - 1) x) sched (alloc (fun _ => 0) n) = runActs (incAct ow x) sched (alloc (fun _ => 0) n) := by
    intro sched hs
    refine runInc_small x sched _ 0 ?_ ?_
    · intro d hd
      unfold alloc at hd
      obtain ⟨_, _, rfl⟩ := List.mem_map.mp hd
      exact Nat.le_refl 0
    · have := (hs.perm.trans hits1.all).length_eq
      rw [List.length_range] at this
      omega
  exact propext ⟨fun ⟨s, hs, ho⟩ => ⟨s, hs, by rw [ho, hrun s hs]⟩, fun ⟨s, hs, ho⟩ => ⟨s, hs, by rw [ho, hrun s hs]⟩⟩

theorem sConvertCoo_small {lw ow : Nat} (T : Nat) (wgt : Bool) (c : Coo W) (hn : c.n + 1 < 2 ^ (lw - 1)) (hm : c.m < 2 ^ (ow - 1)) :
    sConvertCoo lw ow T wgt c = convertCoo lw ow T wgt c := by
  rw [sConvertCoo_eq ow T wgt c rfl hn]
  unfold convertCoo
  simp only [countDegrees_small T c.n c.x hm]

/-! ## the sizes of what was loaded -/

section
variable {μ : Mapping} {lw ow k : Nat}

theorem ReadEl_bound (hk : k ≤ 2 ^ (lw - 1)) (h : Spec.NumbersBelow k μ.bytes) (h0 : 0 < k) {cfg : Cfg} {wk : WKind W} {T L : Nat}
    {r : Reader} (hr : r.d ≤ L ∧ r.e = L) (how : T * (2 * L) < 2 ^ (ow - 1)) {c : Coo W} (ho : ReadEl μ lw ow cfg wk T r (.ok c)) :
    c.n ≤ k ∧ c.m ≤ T * (2 * L) := by
  obtain ⟨_, h2⟩ := sReadElPlan_numbers (lw := lw) (by omega) h h0 cfg wk hr how
  unfold ReadEl at ho
  cases hp : readElPlan μ lw ow cfg wk T r with
  | error f => rw [hp] at ho; cases ho
  | ok p =>
    rw [hp] at ho
    obtain ⟨a, b, c'⟩ := h2 p hp
    obtain ⟨j, sched, _, hx⟩ := ho
    obtain ⟨mem, _, hx⟩ := bind_okS hx.symm
    cases hx
    have e1 := Nat.mod_le (p.mr + 1) (2 ^ lw)
    have e2 := Nat.mod_le (p.mc + 1) (2 ^ lw)
    refine ⟨?_, a⟩
    simp only
    split <;> omega

theorem readMmHeader_bound (h : Spec.NumbersBelow k μ.bytes) (hk : k ≤ 2 ^ (lw - 1)) {r r' : Reader} {nrows ncols nnz : Nat}
    (hx : readMmHeader μ lw ow r = .ok (nrows, ncols, nnz, r')) : nrows ≤ k ∧ ncols ≤ k := by
  obtain ⟨b, _, hx⟩ := bind_okS hx
  split at hx
  · cases hx
  · obtain ⟨r1, _, hx⟩ := bind_okS hx
    obtain ⟨x, h1, hx⟩ := bind_okS hx
    obtain ⟨r2, _, hx⟩ := bind_okS hx
    obtain ⟨y, h2, hx⟩ := bind_okS hx
    obtain ⟨r3, _, hx⟩ := bind_okS hx
    obtain ⟨z, _, hx⟩ := bind_okS hx
    obtain ⟨r4, _, hx⟩ := bind_okS hx
    obtain ⟨r5, _, hx⟩ := bind_okS hx
    cases hx
    have b1 := (readInt_small hk h r1).2 x h1
    have b2 := (readInt_small hk h r2).2 y h2
    have e1 := Nat.mod_le (x.1 + 1) (2 ^ lw)
    have e2 := Nat.mod_le (y.1 + 1) (2 ^ lw)
    exact ⟨by omega, by omega⟩

theorem ReadMm_bound (hk : k ≤ 2 ^ (lw - 1)) (h : Spec.NumbersBelow k μ.bytes) (h0 : 0 < k) {cfg : Cfg} {wk : WKind W} {T L : Nat}
    {r : Reader} (hr : r.d ≤ L ∧ r.e = L) (how : T * (2 * L) < 2 ^ (ow - 1)) {c : Coo W} (ho : ReadMm μ lw ow cfg wk T r (.ok c)) :
    c.n ≤ k ∧ c.m ≤ T * (2 * L) := by
  unfold ReadMm at ho
  cases hp : readMmHeader μ lw ow r with
  | error f => rw [hp] at ho; cases ho
  | ok x =>
    obtain ⟨nrows, ncols, nnz, r'⟩ := x
    rw [hp] at ho
    have hr' := (Keeps.readMmHeader μ lw ow hr).keeps _ hp
    obtain ⟨b1, b2⟩ := readMmHeader_bound h hk hp
    obtain ⟨o, ho, hx⟩ := ho
    cases o with
    | error f => cases hx
    | ok c' =>
      have hb := ReadEl_bound hk h h0 hr' how ho
      have hx : mmCheck ow cfg nrows ncols nnz c' = .ok c := hx.symm
      unfold mmCheck at hx
      simp only at hx
      generalize (if cfg.sym = true then decide (nnz > twice ow c'.m) else if cfg.sl = true then decide (nnz > c'.m) else nnz != c'.m) = bad at hx
      split at hx
      · split at hx
        · split at hx
          · cases hx
          · cases hx
            refine ⟨?_, hb.2⟩
            simp only
            split <;> omega
        · cases hx
      · cases hx

theorem readGraph_bound {kn km L T : Nat} (hkn : kn + 1 ≤ 2 ^ (lw - 1)) (h0 : 0 < kn) (hkm : 2 * km ≤ 2 ^ (ow - 1)) (hn : Spec.NumbersBelow kn μ.bytes)
    (hm : Spec.NumbersBelow km μ.bytes) {r : Reader} (hr : r.d ≤ L ∧ r.e = L)
    (hlw : T * L + 2 < 2 ^ (lw - 1)) (how : (T + 1) * L < 2 ^ (ow - 1)) {c : Csr W} (ho : (readGraph lw ow T μ r).Out (.ok c)) : c.m ≤ T * L := by
  obtain ⟨_, h2⟩ := sGraphPlan_small (T := T) (L := L) (lw := lw) (ow := ow) (by omega) h0 (by omega) hn hm hr hlw how
  obtain ⟨o, ho, hk⟩ := ho
  cases ho
  cases hp : graphPlan μ lw ow T r with
  | error f => rw [hp] at hk; cases hk
  | ok p =>
    rw [hp] at hk
    obtain ⟨o, _, hk⟩ := hk
    cases o with
    | error f => cases hk
    | ok jo =>
    obtain ⟨o, _, hk⟩ := hk
    cases o with
    | error f => cases hk
    | ok je =>
    obtain ⟨o, _, hk⟩ := hk
    cases o with
    | error f => cases hk
    | ok oo =>
    obtain ⟨o, _, hk⟩ := hk
    cases o with
    | error f => cases hk
    | ok oe =>
    have hk : graphFinish lw ow p oe.1 oe.2 = .ok c := Eq.symm hk
    unfold graphFinish at hk
    split at hk
    · cases hk
    · split at hk
      · cases hk
      · cases hk; exact (h2 p hp).2.2.2

theorem sConvertCsr_small {ow : Nat} (T : Nat) (stor : Storage) (cfg : Cfg) (wgt : Bool) (c : Csr W) (h : c.m * 2 < 2 ^ (ow - 1)) :
    sConvertCsr ow T stor cfg wgt c = convertCsr ow T stor cfg wgt c := by
  unfold sConvertCsr convertCsr
  rw [wrapS_lt h, Nat.mod_eq_of_lt (Nat.lt_of_lt_of_le h (pow_pred_le ow))]

end

end Pigo
