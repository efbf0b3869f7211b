import Verif.Lemmas.SignedSmall

/-!
# Signed types do not overflow on files without large numbers: edge lists, Matrix Market, tensors
-/

namespace Pigo

variable {W : Type} {α β S : Type}

/-! ## edge lists -/

theorem Keeps.nextLineInt (μ : Mapping) {e : Nat} {r : Reader} (h : r.d ≤ e ∧ r.e = e) : Keeps e id (nextLineInt μ r) := by
  unfold Pigo.nextLineInt
  exact .bind (f := id) (.scan μ _ h) fun r h => .moveToNextInt μ h

theorem elRegion_bound (μ : Mapping) (r : Reader) (h : r.d ≤ r.e) (T tid : Nat) (rs : Reader) (hr : elRegion μ r T tid = .ok rs) : rs.e ≤ r.e := by
  obtain ⟨re, h1, hr⟩ := bind_okS hr
  obtain ⟨r0, h2, hr⟩ := bind_okS hr
  cases hr
  have k1 := (Keeps.nextLineInt μ (plus_keeps r ((tid + 1) * r.size / T) h)).keeps _ h1
  have k2 : r0.d ≤ r.e ∧ r0.e = r.e := by
    unfold elStart at h2
    split at h2
    · exact (Keeps.nextLineInt μ (plus_keeps r (tid * r.size / T) h)).keeps _ h2
    · exact (Keeps.moveToFirstInt μ (plus_keeps r (tid * r.size / T) h)).keeps _ h2
  simp only [id] at k1
  unfold Reader.smallerEnd
  split
  · exact k1.1
  · exact Nat.le_of_eq k2.2

theorem countEntryN_bound (μ : Mapping) (lw : Nat) (cfg : Cfg) (wk : WKind W) : ∀ (n pos : Nat) (r : Reader) (pos' : Nat) (r' : Reader),
    countEntryN μ lw cfg wk n pos r = .ok (pos', r') → pos' ≤ pos + 2
  | 0, _, _, _, _, h => by cases h
  | n+1, pos, r, pos', r', h => by
    obtain ⟨x, _, h⟩ := bind_okS h
    obtain ⟨_, _, h⟩ := bind_okS h
    obtain ⟨y, _, h⟩ := bind_okS h
    obtain ⟨r3, _, h⟩ := bind_okS h
    split at h
    · cases h; omega
    · obtain ⟨_, _, h⟩ := bind_okS h
      obtain ⟨_, _, h⟩ := bind_okS h
      split at h
      · exact countEntryN_bound μ lw cfg wk n _ _ _ _ h
      · split at h
        · exact countEntryN_bound μ lw cfg wk n _ _ _ _ h
        · injection h with h
          injection h with h1 _
          rw [← h1]
          split <;> omega

theorem countEntry_bound (μ : Mapping) (lw : Nat) (cfg : Cfg) (wk : WKind W) (pos : Nat) (r : Reader) (pos' : Nat) (r' : Reader)
    (h : countEntry μ lw cfg wk pos r = .ok (pos', r')) : pos' ≤ pos + 2 := by
  unfold countEntry at h
  split at h
  · obtain ⟨r1, _, h⟩ := bind_okS h
    split at h
    · cases h; omega
    · obtain ⟨_, _, h⟩ := bind_okS h
      obtain ⟨_, _, h⟩ := bind_okS h
      cases h; omega
  · exact countEntryN_bound μ lw cfg wk _ _ _ _ _ h

theorem elCount_bound (μ : Mapping) (lw : Nat) (cfg : Cfg) (wk : WKind W) (rs : Reader) (c : Nat) (h : elCount μ lw cfg wk rs = .ok c) :
    c ≤ 2 * (rs.e - rs.d) := by
  obtain ⟨x, hx, h⟩ := bind_okS h
  cases h
  have := whileGood_bound (fun c : Nat => c) 2 (countEntry_bound μ lw cfg wk) _ _ _ _ _ hx
  simpa using this

theorem Agree.whileGood {σ : Type} {f g : σ → Reader → M (σ × Reader)} {P : σ → Prop} (h : ∀ s r, P s → Agree (fun x => P x.1) (f s r) (g s r)) :
    ∀ (n : Nat) (s : σ) (r : Reader), P s → Agree (fun x => P x.1) (whileGood f n s r) (whileGood g n s r)
  | 0, s, r, hs => by
    simp only [Pigo.whileGood]
    split
    · exact .error
    · exact .ok hs
  | n+1, s, r, hs => by
    simp only [Pigo.whileGood]
    split
    · exact (h s r hs).bind (fun x hx => Agree.whileGood h n x.1 x.2 hx)
    · exact .ok hs

section
variable {μ : Mapping} {lw ow k : Nat} (hk : k ≤ 2 ^ (lw - 1)) (h : Spec.NumbersBelow k μ.bytes)

include hk h in
theorem sCountEntry_small (cfg : Cfg) (wk : WKind W) (pos : Nat) (r : Reader) :
    Agree (fun _ => True) (sCountEntry μ lw cfg wk pos r) (countEntry μ lw cfg wk pos r) := by
  unfold sCountEntry countEntry
  split
  · exact .same _
  · generalize r.e - r.d + 1 = n
    induction n generalizing pos r with
    | zero => exact .error
    | succ n ih =>
      simp only [sCountEntryN, countEntryN]
      refine (readInt_small hk h r).bind (fun x _ => (Agree.same _).bind (fun r _ => (readInt_small hk h r).bind (fun y _ =>
        (Agree.same _).bind (fun r _ => ?_))))
      split
      · exact .same _
      · refine (Agree.same _).bind (fun r _ => (Agree.same _).bind (fun r _ => ?_))
        split
        · exact ih _ _
        · split
          · exact ih _ _
          · exact .same _

theorem upd_lt {a x : Nat} (ha : a < k) (hx : x < k) : upd a x < k := by unfold upd; split <;> assumption

theorem setWgt_keeps {wk : WKind W} {st : SetSt W} {r : Reader} {x : W × SetSt W × Reader} (hx : setWgt μ wk st r = .ok x) :
    x.2.1.mr = st.mr ∧ x.2.1.mc = st.mc := by
  obtain ⟨y, _, hx⟩ := bind_okS hx
  cases hx
  exact ⟨rfl, rfl⟩

theorem setWgt_agree (wk : WKind W) {st : SetSt W} (hs : st.mr < k ∧ st.mc < k) (r : Reader) :
    Agree (fun x => x.2.1.mr < k ∧ x.2.1.mc < k) (setWgt μ wk st r) (setWgt μ wk st r) :=
  .refl (fun x hx => by obtain ⟨h1, h2⟩ := setWgt_keeps hx; rw [h1, h2]; exact hs)

include hk h in
theorem sSetEntry_small (cfg : Cfg) (wk : WKind W) (st : SetSt W) (r : Reader) (hs : st.mr < k ∧ st.mc < k) :
    Agree (fun x => x.1.mr < k ∧ x.1.mc < k) (sSetEntry μ lw cfg wk st r) (setEntry μ lw cfg wk st r) := by
  unfold sSetEntry setEntry
  split
  · unfold sSetEntryPlain setEntryPlain
    refine (readInt_small hk h r).bind (fun x hx => (Agree.same _).bind (fun r _ => (readInt_small hk h r).bind (fun y hy =>
      (setWgt_agree wk hs _).bind (fun z hz => ?_))))
    obtain ⟨w, st', r'⟩ := z
    simp only at hz ⊢
    split
    · exact .ok hz
    · exact (Agree.same _).bind (fun r _ => (Agree.same _).bind (fun r _ => .ok ⟨upd_lt hz.1 hx, upd_lt hz.2 hy⟩))
  · generalize r.e - r.d + 1 = n
    induction n generalizing st r with
    | zero => exact .error
    | succ n ih =>
      simp only [sSetEntryN, setEntryN]
      refine (readInt_small hk h r).bind (fun x hx => (Agree.same _).bind (fun r _ => (readInt_small hk h r).bind (fun y hy =>
        (setWgt_agree wk hs _).bind (fun z hz => ?_))))
      split
      · exact .ok hz
      · refine (Agree.same _).bind (fun r _ => (Agree.same _).bind (fun r _ => ?_))
        split
        · exact ih _ _ hz
        · split
          · exact ih _ _ hz
          · refine .ok ⟨upd_lt hz.1 ?_, upd_lt hz.2 ?_⟩
            · split <;> assumption
            · split <;> assumption

theorem foldl_max_lt {σ : Type} (g : σ → Nat) : ∀ (l : List σ) (a : Nat), a < k → (∀ s ∈ l, g s < k) → l.foldl (fun a s => max a (g s)) a < k
  | [], _, ha, _ => ha
  | x :: l, a, ha, hl => by
    have := hl x (List.mem_cons_self ..)
    exact foldl_max_lt g l (max a (g x)) (by omega) (fun s hs => hl s (List.mem_cons_of_mem _ hs))

include hk h in
theorem sReadElPlan_numbers (h0 : 0 < k) (cfg : Cfg) (wk : WKind W) {T L : Nat} {r : Reader} (hr : r.d ≤ L ∧ r.e = L)
    (how : T * (2 * L) < 2 ^ (ow - 1)) :
    Agree (fun p => p.m ≤ T * (2 * L) ∧ p.mr < k ∧ p.mc < k) (sReadElPlan μ lw ow cfg wk T r) (readElPlan μ lw ow cfg wk T r) := by
  unfold sReadElPlan readElPlan
  refine Agree.bind (P := fun regions => regions.length = T ∧ ∀ rs ∈ regions, rs.e ≤ L) (.refl ?_) ?_
  · intro regions hreg
    refine ⟨by rw [mapE_len hreg, List.length_range], fun rs hrs => ?_⟩
    obtain ⟨tid, _, ht⟩ := mapE_mem hreg hrs
    have := elRegion_bound μ r (by omega) T tid rs ht
    omega
  · rintro regions ⟨hlen, hreg⟩
    have hc : Agree (fun _ => True) (mapE (sElCount μ lw cfg wk) regions) (mapE (elCount μ lw cfg wk) regions) := by
      refine (Agree.mapE (P := fun _ => True) regions (fun rs hrs => ?_)).mono (fun _ _ => trivial)
      unfold sElCount elCount
      exact ((Agree.whileGood (P := fun _ => True) (fun s r _ => sCountEntry_small hk h cfg wk s r) _ _ _ trivial)).bind (fun _ _ => .same _)
    refine Agree.bind (P := fun counts => counts.length = T ∧ ∀ c ∈ counts, c ≤ 2 * L) ⟨hc.1, ?_⟩ ?_
    · intro counts hcnt
      refine ⟨by rw [mapE_len hcnt, hlen], fun c hc => ?_⟩
      obtain ⟨rs, hrs, h⟩ := mapE_mem hcnt hc
      have h1 := elCount_bound μ lw cfg wk rs c h
      have h2 := hreg rs hrs
      omega
    · rintro counts ⟨hclen, hcnt⟩
      refine Agree.bind (P := fun sts => ∀ s ∈ sts, s.mr < k ∧ s.mc < k) (Agree.mapE _ ?_) ?_
      · rintro ⟨tid, rs⟩ _
        unfold sElSet elSet
        exact (Agree.whileGood (P := fun s : SetSt W => s.mr < k ∧ s.mc < k) (fun s r hs => sSetEntry_small hk h cfg wk s r hs) _ _ _ ⟨h0, h0⟩).bind
          (fun x hx => .ok hx)
      · intro sts hs
        have hb := prefixSums_bound (L := 2 * L) counts 0 (T - 1) hcnt
        rw [hclen] at hb
        obtain ⟨m1, m2⟩ := wrapS_small (w := ow) (n := (prefixSums 0 counts).getD (T - 1) 0) (by omega)
        unfold sElPlan elPlan
        rw [m1, m2, ok_bind]
        exact .ok ⟨by simp only; omega, foldl_max_lt (fun s : SetSt W => s.mr) sts 0 h0 (fun s hs' => (hs s hs').1),
          foldl_max_lt (fun s : SetSt W => s.mc) sts 0 h0 (fun s hs' => (hs s hs').2)⟩

theorem sExecPlan_small {wgt : Bool} {j : Junk W} {p : Plan W} (h1 : p.mr + 1 < 2 ^ (lw - 1)) (h2 : p.mc + 1 < 2 ^ (lw - 1)) (sched : List (Act W)) :
    sExecPlan lw wgt j p sched = execPlan lw wgt j p sched := by
  unfold sExecPlan execPlan
  obtain ⟨a1, a2⟩ := wrapS_small h1
  obtain ⟨b1, b2⟩ := wrapS_small h2
  rw [a1, b1, a2, b2]
  rfl

end

section
variable {μ : Mapping} {lw ow k : Nat}

theorem execPlan_mS {wgt : Bool} {j : Junk W} {p : Plan W} {sched : List (Act W)} {c : Coo W} (h : execPlan lw wgt j p sched = .ok c) : c.m = p.m := by
  obtain ⟨_, _, h⟩ := bind_okS h
  cases h; rfl

theorem SReadEl_small (hk : k + 1 ≤ 2 ^ (lw - 1)) (h : Spec.NumbersBelow k μ.bytes) (h0 : 0 < k) (cfg : Cfg) (wk : WKind W) {T L : Nat}
    {r : Reader} (hr : r.d ≤ L ∧ r.e = L) (how : T * (2 * L) < 2 ^ (ow - 1)) (out : M (Coo W)) :
    (SReadEl μ lw ow cfg wk T r out ↔ ReadEl μ lw ow cfg wk T r out) ∧ (ReadEl μ lw ow cfg wk T r out → ∀ c, out = .ok c → c.m ≤ T * (2 * L)) := by
  obtain ⟨h1, h2⟩ := sReadElPlan_numbers (lw := lw) (by omega) h h0 cfg wk hr how
  unfold SReadEl ReadEl
  rw [h1]
  cases hp : readElPlan μ lw ow cfg wk T r with
  | error f => exact ⟨Iff.rfl, fun h c hc => by rw [h] at hc; cases hc⟩
  | ok p =>
    obtain ⟨a, b, c⟩ := h2 p hp
    simp only
    refine ⟨⟨?_, ?_⟩, ?_⟩
    · rintro ⟨j, sched, hi, rfl⟩; exact ⟨j, sched, hi, sExecPlan_small (by omega) (by omega) sched⟩
    · rintro ⟨j, sched, hi, rfl⟩; exact ⟨j, sched, hi, (sExecPlan_small (by omega) (by omega) sched).symm⟩
    · rintro ⟨j, sched, hi, rfl⟩ c hc
      rw [execPlan_mS hc]; exact a

/-! ## Matrix Market -/

theorem Keeps.readMmHeader (μ : Mapping) (lw ow : Nat) {e : Nat} {r : Reader} (h : r.d ≤ e ∧ r.e = e) :
    Keeps e (fun x => x.2.2.2) (readMmHeader μ lw ow r) := by
  unfold Pigo.readMmHeader
  refine .any fun b => ?_
  split
  · exact ⟨fun a ha => by cases ha⟩
  · refine .bind (.moveToNextInt μ h) fun r h => .bind (.readInt μ _ h) fun x h => ?_
    refine .bind (.moveToNextInt μ h) fun r h => .bind (.readInt μ _ h) fun x h => ?_
    refine .bind (.moveToNextInt μ h) fun r h => .bind (.readInt μ _ h) fun x h => ?_
    refine .bind (f := id) ?_ fun r h => .bind (.moveToNextInt μ h) fun r h => .ok h
    exact .scan μ _ h

theorem sReadMmHeader_small {km : Nat} (hk : k + 1 ≤ 2 ^ (lw - 1)) (h : Spec.NumbersBelow k μ.bytes) (hkm : km ≤ 2 ^ (ow - 1))
    (hm : Spec.NumbersBelow km μ.bytes) (r : Reader) : sReadMmHeader μ lw ow r = readMmHeader μ lw ow r := by
  suffices hh : Agree (fun _ => True) (sReadMmHeader μ lw ow r) (readMmHeader μ lw ow r) from hh.1
  unfold sReadMmHeader readMmHeader
  refine (Agree.same _).bind (fun b _ => ?_)
  split
  · exact .same _
  · refine (Agree.same _).bind (fun r _ => (readInt_small (by omega) h r).bind (fun x hx => ?_))
    obtain ⟨a1, a2⟩ := wrapS_small (w := lw) (n := x.1 + 1) (by omega)
    simp only [a1, a2, ok_bind]
    refine (Agree.same _).bind (fun r _ => (readInt_small (by omega) h r).bind (fun y hy => ?_))
    obtain ⟨b1, b2⟩ := wrapS_small (w := lw) (n := y.1 + 1) (by omega)
    simp only [b1, b2, ok_bind]
    exact (Agree.same _).bind (fun r _ => (readInt_small hkm hm r).bind (fun y hy => .same _))

theorem sMmCheck_small {cfg : Cfg} {nrows ncols nnz : Nat} {c : Coo W} (h : 2 * c.m < 2 ^ (ow - 1)) :
    sMmCheck ow cfg nrows ncols nnz c = mmCheck ow cfg nrows ncols nnz c := by
  have := sMmCheck_sim ow cfg nrows ncols nnz c
  rcases this with hh | hh
  · exfalso
    unfold sMmCheck at hh
    split at hh
    · split at hh
      · rw [wrapS_lt h] at hh
        cases hs : cfg.sym <;> cases hl : cfg.sl <;> simp only [hs, hl, ok_bind, if_true, Bool.false_eq_true, if_false] at hh <;> split at hh <;> cases hh
      · cases hh
    · cases hh
  · exact hh

theorem SReadMm_small {km : Nat} (hk : k + 1 ≤ 2 ^ (lw - 1)) (h : Spec.NumbersBelow k μ.bytes) (h0 : 0 < k) (hkm : km ≤ 2 ^ (ow - 1))
    (hm : Spec.NumbersBelow km μ.bytes) (cfg : Cfg) (wk : WKind W) {T L : Nat}
    {r : Reader} (hr : r.d ≤ L ∧ r.e = L) (how : 2 * (T * (2 * L)) < 2 ^ (ow - 1)) (out : M (Coo W)) :
    SReadMm μ lw ow cfg wk T r out ↔ ReadMm μ lw ow cfg wk T r out := by
  unfold SReadMm ReadMm
  rw [sReadMmHeader_small hk h hkm hm]
  cases hp : readMmHeader μ lw ow r with
  | error f => exact Iff.rfl
  | ok x =>
    obtain ⟨nrows, ncols, nnz, r'⟩ := x
    have hr' := (Keeps.readMmHeader μ lw ow hr).keeps _ hp
    have key := fun o => SReadEl_small (ow := ow) hk h h0 cfg wk hr' (T := T) (by omega) o
    simp only
    refine ⟨?_, ?_⟩
    · rintro ⟨o, ho, rfl⟩
      have ho' := (key o).1.mp ho
      refine ⟨o, ho', ?_⟩
      cases o with
      | error f => rfl
      | ok c => exact sMmCheck_small (by have := (key _).2 ho' c rfl; omega)
    · rintro ⟨o, ho', rfl⟩
      refine ⟨o, (key o).1.mpr ho', ?_⟩
      cases o with
      | error f => rfl
      | ok c => exact (sMmCheck_small (by have := (key _).2 ho' c rfl; omega)).symm

/-! ## Tensors -/

theorem countSpacesN_bound (μ : Mapping) : ∀ (n ct : Nat) (r : Reader) (x : Nat × Reader), countSpacesN μ n ct r = .ok x → x.1 ≤ ct + n
  | 0, ct, r, x, h => by
    rw [countSpacesN] at h
    split at h
    · cases h
    · cases h; simp
  | n+1, ct, r, x, h => by
    rw [countSpacesN] at h
    split at h
    · obtain ⟨b, _, h⟩ := bind_okS h
      split at h
      · cases h; simp only; omega
      · obtain ⟨r1, _, h⟩ := bind_okS h
        obtain ⟨b, _, h⟩ := bind_okS h
        split at h
        · obtain ⟨_, _, h⟩ := bind_okS h
          cases h; simp only; omega
        · obtain ⟨r1, _, h⟩ := bind_okS h
          obtain ⟨b, _, h⟩ := bind_okS h
          split at h
          · cases h; simp only; omega
          · split at h
            · obtain ⟨_, _, h⟩ := bind_okS h
              cases h; simp only; omega
            · obtain ⟨r1, _, h⟩ := bind_okS h
              obtain ⟨b, _, h⟩ := bind_okS h
              split at h
              · cases h; simp only; omega
              · split at h
                · obtain ⟨_, _, h⟩ := bind_okS h
                  cases h; simp only; omega
                · have := countSpacesN_bound μ n _ _ _ h
                  omega
    · cases h; simp only; omega

theorem sTensorOrder_small {L : Nat} {r : Reader} (hr : r.d ≤ L ∧ r.e = L) (how : L + 1 < 2 ^ (ow - 1)) (wgt : Bool) :
    sTensorOrder μ ow wgt r = tensorOrder μ ow wgt r := by
  suffices hh : Agree (fun _ => True) (sTensorOrder μ ow wgt r) (tensorOrder μ ow wgt r) from hh.1
  unfold sTensorOrder tensorOrder
  refine Agree.bind (P := fun r1 => r1.e = L) (.refl (fun r1 h1 => ((Keeps.moveToFirstInt μ hr).keeps _ h1).2)) (fun r1 h1 => ?_)
  refine Agree.bind (P := fun x => x.1 ≤ L) (.refl (fun x hx => ?_)) (fun x hx => ?_)
  · have := countSpacesN_bound μ _ _ _ _ hx
    omega
  · obtain ⟨a1, a2⟩ := wrapS_small (w := ow) (n := x.1) (by omega)
    simp only [a1, a2, ok_bind]
    cases wgt
    · simp only [Bool.false_eq_true, if_false]
      obtain ⟨b1, b2⟩ := wrapS_small (w := ow) (n := x.1 + 1) (by omega)
      rw [b1, b2]; exact .same _
    · exact .same _

theorem tensorCount_bound (μ : Mapping) (lw : Nat) (wk : WKind W) (order pos : Nat) (r : Reader) (pos' : Nat) (r' : Reader)
    (h : tensorCount μ lw wk order pos r = .ok (pos', r')) : pos' ≤ pos + 1 := by
  obtain ⟨⟨ok, r1⟩, _, h⟩ := bind_okS h
  simp only at h
  split at h
  · cases h; omega
  · obtain ⟨_, _, h⟩ := bind_okS h
    obtain ⟨_, _, h⟩ := bind_okS h
    cases h; omega

theorem sTensorPlan_small (hk : k ≤ 2 ^ (lw - 1)) (h : Spec.NumbersBelow k μ.bytes) (wk : WKind W) {T L : Nat} {r : Reader} (hr : r.d ≤ L ∧ r.e = L)
    (how : (T + 1) * L + 1 < 2 ^ (ow - 1)) : sTensorPlan μ lw ow wk T r = tensorPlan μ lw ow wk T r := by
  rw [Nat.succ_mul] at how
  suffices hh : Agree (fun _ => True) (sTensorPlan μ lw ow wk T r) (tensorPlan μ lw ow wk T r) from hh.1
  unfold sTensorPlan tensorPlan
  rw [sTensorOrder_small hr (by omega)]
  refine (Agree.same _).bind (fun order _ => ?_)
  refine Agree.bind (P := fun regions => regions.length = T ∧ ∀ rs ∈ regions, rs.e ≤ L) (.refl ?_) ?_
  · intro regions hreg
    refine ⟨by rw [mapE_len hreg, List.length_range], fun rs hrs => ?_⟩
    obtain ⟨tid, _, ht⟩ := mapE_mem hreg hrs
    have := elRegion_bound μ r (by omega) T tid rs ht
    omega
  · rintro regions ⟨hlen, hreg⟩
    have hsk : ∀ (n : Nat) (r : Reader), Agree (fun _ => True) (sSkipCoords μ lw wk n r) (skipCoords μ lw wk n r) := by
      intro n
      induction n with
      | zero => intro r; exact .same _
      | succ n ih =>
        intro r
        simp only [sSkipCoords, skipCoords]
        have hs : ∀ r : Reader, Agree (fun _ => True) (if !r.good then Except.ok (false, r) else sSkipCoords μ lw wk n r)
            (if !r.good then Except.ok (false, r) else skipCoords μ lw wk n r) := by
          intro r
          split
          · exact .same _
          · exact ih r
        split
        · exact (Agree.same _).bind (fun r _ => hs r)
        · exact (readInt_small hk h r).bind (fun x _ => (Agree.same _).bind (fun r _ => hs r))
    have hrc : ∀ (order pos n idx : Nat) (acts : List (TAct W)) (r : Reader),
        Agree (fun _ => True) (sReadCoords μ lw order pos n idx acts r) (readCoords μ lw order pos n idx acts r) := by
      intro order pos n
      induction n with
      | zero => intro idx acts r; exact .same _
      | succ n ih =>
        intro idx acts r
        simp only [sReadCoords, readCoords]
        refine (readInt_small hk h r).bind (fun x _ => ?_)
        split
        · exact .same _
        · exact ih _ _ _
    have hc : Agree (fun _ => True) (mapE (sTensorCountAll μ lw wk order) regions) (mapE (tensorCountAll μ lw wk order) regions) := by
      refine (Agree.mapE (P := fun _ => True) regions (fun rs hrs => ?_)).mono (fun _ _ => trivial)
      unfold sTensorCountAll tensorCountAll
      refine (Agree.whileGood (P := fun _ => True) (fun s r _ => ?_) _ _ _ trivial).bind (fun _ _ => .same _)
      unfold sTensorCount tensorCount
      exact (hsk _ _).bind (fun _ _ => .same _)
    refine Agree.bind (P := fun counts => counts.length = T ∧ ∀ c ∈ counts, c ≤ L) ⟨hc.1, ?_⟩ ?_
    · intro counts hcnt
      refine ⟨by rw [mapE_len hcnt, hlen], fun c hc => ?_⟩
      obtain ⟨rs, hrs, h⟩ := mapE_mem hcnt hc
      obtain ⟨x, hx, h⟩ := bind_okS h
      cases h
      have h1 := whileGood_bound (fun c : Nat => c) 1 (tensorCount_bound μ lw wk order) _ _ _ _ _ hx
      have h2 := hreg rs hrs
      omega
    · rintro counts ⟨hclen, hcnt⟩
      refine Agree.bind (P := fun _ => True) ((Agree.mapE (P := fun _ => True) _ ?_).mono (fun _ _ => trivial)) ?_
      · rintro ⟨tid, rs⟩ _
        unfold sTensorSetAll tensorSetAll
        refine (Agree.whileGood (P := fun _ => True) (fun s r _ => ?_) _ _ _ trivial).bind (fun _ _ => .same _)
        unfold sTensorSet tensorSet
        exact (hrc _ _ _ _ _ _).bind (fun _ _ => .same _)
      · intro acts _
        have hb := prefixSums_bound (L := L) counts 0 (T - 1) hcnt
        rw [hclen] at hb
        obtain ⟨m1, m2⟩ := wrapS_small (w := ow) (n := (prefixSums 0 counts).getD (T - 1) 0) (by omega)
        rw [m1, m2, ok_bind]
        exact .same _

/-- If all executions with unsigned types load a tensor of moderate size, the signed types give the same. -/
theorem sReadTensorEl_small [Nonempty W] (hk : k ≤ 2 ^ (lw - 1)) (h : Spec.NumbersBelow k μ.bytes) (wk : WKind W) {T L : Nat} {r : Reader}
    (hr : r.d ≤ L ∧ r.e = L) (how : (T + 1) * L + 1 < 2 ^ (ow - 1))
    (hall : (readTensorEl μ lw ow wk T r).All (fun t => t.order * t.m < 2 ^ (ow - 1))) :
    sReadTensorEl μ lw ow wk T r = readTensorEl μ lw ow wk T r := by
  have hp := sTensorPlan_small hk h wk hr how
  obtain ⟨w0⟩ := ‹Nonempty W›
  unfold sReadTensorEl
  rw [hp]
  unfold readTensorEl at hall ⊢
  refine liftBind _ _ _ (fun p hpp => ?_)
  have hsmall : p.order * p.m < 2 ^ (ow - 1) := by
    rw [hpp, liftOk] at hall
    obtain ⟨o, jc, jw, ho⟩ : ∃ o, ∃ jc : Nat → Nat, ∃ jw : Nat → W,
        (R.par stepT p.threads { c := alloc jc (inOrd ow (p.order * p.m)), w := if wk.wgt then alloc jw p.m else [] }).Out o := by
      obtain ⟨o, ho⟩ := R.Any.par stepT p.threads (TMem.mk (alloc (fun _ => 0) (inOrd ow (p.order * p.m)))
        (if wk.wgt then alloc (fun _ => w0) p.m else []))
      exact ⟨o, _, _, ho⟩
    cases o with
    | error f =>
      obtain ⟨t, ht, _⟩ := hall (.error f) ⟨_, ⟨jc, trivial, rfl⟩, _, ⟨jw, trivial, rfl⟩, _, ho, rfl⟩
      cases ht
    | ok mem =>
      obtain ⟨t, ht, h'⟩ := hall _ ⟨_, ⟨jc, trivial, rfl⟩, _, ⟨jw, trivial, rfl⟩, _, ho, rfl⟩
      cases ht
      exact h'
  rw [wrapS_lt hsmall, liftOk, inOrd_lt (Nat.lt_of_lt_of_le hsmall (pow_pred_le ow))]

theorem sMaxEntry_eq {t : Tensor W} (hs : t.order * t.m < 2 ^ (ow - 1)) {e : Nat} (he : e < t.m) : ∀ (is mx : List Nat), (∀ i ∈ is, i < t.order) →
    sMaxEntry ow t e is mx = maxEntry ow t e is mx
  | [], _, _ => rfl
  | idx :: is, mx, hi => by
    have h1 : e * t.order + idx < t.order * t.m := by
      have := hi idx (List.mem_cons_self ..)
      calc e * t.order + idx < e * t.order + t.order := by omega
        _ = (e + 1) * t.order := by rw [Nat.succ_mul]
        _ ≤ t.m * t.order := Nat.mul_le_mul_right _ he
        _ = t.order * t.m := Nat.mul_comm ..
    simp only [sMaxEntry, maxEntry]
    rw [wrapS_lt (by omega), ok_bind, inOrd_lt (by have := pow_pred_le ow; omega)]
    congr 1; funext v
    congr 1; funext old
    congr 1; funext mx
    exact sMaxEntry_eq hs he is mx (fun i h => hi i (List.mem_cons_of_mem _ h))

theorem sMaxThread_eq {t : Tensor W} (hs : t.order * t.m < 2 ^ (ow - 1)) : ∀ (es mx : List Nat), (∀ e ∈ es, e < t.m) →
    sMaxThread ow t es mx = maxThread ow t es mx
  | [], _, _ => rfl
  | e :: es, mx, hm => by
    simp only [sMaxThread, maxThread]
    rw [sMaxEntry_eq hs (hm e (List.mem_cons_self ..)) _ _ (fun i hi => List.mem_range.mp hi)]
    congr 1; funext mx
    exact sMaxThread_eq hs es mx (fun e h => hm e (List.mem_cons_of_mem _ h))

end

end Pigo
