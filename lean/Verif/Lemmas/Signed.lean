import Verif.Model.Signed

/-!
# Signed and unsigned types agree unless something overflows
-/

namespace Pigo

variable {W : Type} {α β S : Type}

/-- `a` behaves as `b`, or overflows. -/
def OvSim (a b : M α) : Prop := a = .error .overflow ∨ a = b

theorem OvSim.refl (a : M α) : OvSim a a := .inr rfl

theorem OvSim.bind {a b : M α} {f g : α → M β} (h : OvSim a b) (hf : ∀ v, a = .ok v → OvSim (f v) (g v)) :
    OvSim (a >>= f) (b >>= g) := by
  rcases h with rfl | rfl
  · exact .inl rfl
  · cases a with
    | error e => exact .inr rfl
    | ok v => exact hf v rfl

theorem OvSim.bind' {a b : M α} {f g : α → M β} (h : OvSim a b) (hf : ∀ v, OvSim (f v) (g v)) :
    OvSim (a >>= f) (b >>= g) := h.bind (fun v _ => hf v)

theorem OvSim.same {a : M α} {f g : α → M β} (hf : ∀ v, OvSim (f v) (g v)) : OvSim (a >>= f) (a >>= g) :=
  (OvSim.refl a).bind (fun v _ => hf v)

theorem pow_pred_le (w : Nat) : 2 ^ (w - 1) ≤ 2 ^ w := Nat.pow_le_pow_right (by omega) (by omega)

theorem wrapS_sim (w n : Nat) : OvSim (wrapS w n) (wrapU w n) := by
  unfold wrapS wrapU
  split
  · rename_i h
    rw [Nat.mod_eq_of_lt (Nat.lt_of_lt_of_le h (pow_pred_le w))]; exact .refl _
  · exact .inl rfl

theorem wrapS_ok {w n v : Nat} (h : wrapS w n = .ok v) : v = n ∧ n < 2 ^ (w - 1) := by
  unfold wrapS at h
  split at h
  · injection h with h; exact ⟨h.symm, by assumption⟩
  · cases h

theorem wrapS_lt {w n : Nat} (h : n < 2 ^ (w - 1)) : wrapS w n = .ok n := if_pos h

theorem readDigitsN_sim (μ : Mapping) (w : Nat) : ∀ (n res : Nat) (r : Reader),
    OvSim (readDigitsN μ (wrapS w) n res r) (readDigitsN μ (wrapU w) n res r)
  | 0, _, _ => .refl _
  | n+1, res, r => by
    simp only [readDigitsN]
    split
    · refine OvSim.same (fun b => ?_)
      split
      · exact (wrapS_sim w _).bind' (fun v => readDigitsN_sim μ w n v _)
      · exact .refl _
    · exact .refl _

theorem readInt_sim (μ : Mapping) (w : Nat) (r : Reader) : OvSim (readInt μ (wrapS w) r) (readInt μ (wrapU w) r) :=
  OvSim.same (fun _ => readDigitsN_sim μ w _ _ _)

section
variable (μ : Mapping) (lw : Nat) (cfg : Cfg) (wk : WKind W)

theorem sCountEntryN_sim : ∀ (n pos : Nat) (r : Reader),
    OvSim (sCountEntryN μ lw cfg wk n pos r) (countEntryN μ lw cfg wk n pos r)
  | 0, _, _ => .refl _
  | n+1, pos, r => by
    simp only [sCountEntryN, countEntryN]
    refine (readInt_sim μ lw r).bind' (fun x => OvSim.same (fun r1 => (readInt_sim μ lw _).bind' (fun y => OvSim.same (fun r2 => ?_))))
    split
    · exact .refl _
    · refine OvSim.same (fun r3 => OvSim.same (fun r4 => ?_))
      split
      · exact sCountEntryN_sim n pos r4
      · split
        · exact sCountEntryN_sim n pos r4
        · exact .refl _

theorem sCountEntry_sim (pos : Nat) (r : Reader) : OvSim (sCountEntry μ lw cfg wk pos r) (countEntry μ lw cfg wk pos r) := by
  unfold sCountEntry countEntry
  split
  · exact .refl _
  · exact sCountEntryN_sim μ lw cfg wk _ _ _

theorem sSetEntryN_sim : ∀ (n : Nat) (st : SetSt W) (r : Reader),
    OvSim (sSetEntryN μ lw cfg wk n st r) (setEntryN μ lw cfg wk n st r)
  | 0, _, _ => .refl _
  | n+1, st, r => by
    simp only [sSetEntryN, setEntryN]
    refine (readInt_sim μ lw r).bind' (fun x => OvSim.same (fun r1 => (readInt_sim μ lw _).bind' (fun y => OvSim.same (fun r2 => ?_))))
    split
    · exact .refl _
    · refine OvSim.same (fun r3 => OvSim.same (fun r4 => ?_))
      split
      · exact sSetEntryN_sim n _ r4
      · split
        · exact sSetEntryN_sim n _ r4
        · exact .refl _

theorem sSetEntry_sim (st : SetSt W) (r : Reader) : OvSim (sSetEntry μ lw cfg wk st r) (setEntry μ lw cfg wk st r) := by
  unfold sSetEntry setEntry
  split
  · simp only [sSetEntryPlain, setEntryPlain]
    exact (readInt_sim μ lw r).bind' (fun x => OvSim.same (fun r1 => (readInt_sim μ lw _).bind' (fun y => .refl _)))
  · exact sSetEntryN_sim μ lw cfg wk _ _ _

end

theorem whileGood_sim {σ : Type} {f g : σ → Reader → M (σ × Reader)} (h : ∀ s r, OvSim (f s r) (g s r)) :
    ∀ (n : Nat) (s : σ) (r : Reader), OvSim (whileGood f n s r) (whileGood g n s r)
  | 0, _, _ => .refl _
  | n+1, s, r => by
    simp only [whileGood]
    split
    · exact (h s r).bind' (fun p => whileGood_sim h n _ _)
    · exact .refl _

theorem mapE_sim {f g : α → M β} (h : ∀ a, OvSim (f a) (g a)) : ∀ (l : List α), OvSim (mapE f l) (mapE g l)
  | [] => .refl _
  | a :: l => by
    simp only [mapE]
    exact (h a).bind' (fun b => (mapE_sim h l).bind' (fun bs => .refl _))

theorem sReadElPlan_sim (μ : Mapping) (lw ow : Nat) (cfg : Cfg) (wk : WKind W) (T : Nat) (r : Reader) :
    OvSim (sReadElPlan μ lw ow cfg wk T r) (readElPlan μ lw ow cfg wk T r) := by
  unfold sReadElPlan readElPlan
  refine OvSim.same (fun regions => (mapE_sim (fun a => ?_) _).bind' (fun counts => (mapE_sim (fun a => ?_) _).bind' (fun sts => ?_)))
  · unfold sElCount elCount
    exact (whileGood_sim (sCountEntry_sim μ lw cfg wk) _ _ _).bind' (fun _ => .refl _)
  · unfold sElSet elSet
    exact (whileGood_sim (sSetEntry_sim μ lw cfg wk) _ _ _).bind' (fun _ => .refl _)
  · unfold sElPlan elPlan wrapS
    split
    · rename_i h
      rw [Nat.mod_eq_of_lt (Nat.lt_of_lt_of_le h (pow_pred_le ow))]; exact .refl _
    · exact .inl rfl

theorem sExecPlan_sim (lw : Nat) (wgt : Bool) (j : Junk W) (p : Plan W) (sched : List (Act W)) :
    OvSim (sExecPlan lw wgt j p sched) (execPlan lw wgt j p sched) := by
  unfold sExecPlan execPlan
  refine OvSim.same (fun mem => ?_)
  unfold wrapS
  split
  · rename_i h1
    rw [ok_bind]
    split
    · rename_i h2
      rw [Nat.mod_eq_of_lt (Nat.lt_of_lt_of_le h1 (pow_pred_le lw)), Nat.mod_eq_of_lt (Nat.lt_of_lt_of_le h2 (pow_pred_le lw))]
      exact .refl _
    · exact .inl rfl
  · exact .inl rfl

/-- Every execution of `read_el_` with signed types overflows or is one with the unsigned types. -/
theorem SReadEl.sim {μ : Mapping} {lw ow : Nat} {cfg : Cfg} {wk : WKind W} {T : Nat} {r : Reader} {out : M (Coo W)}
    (h : SReadEl μ lw ow cfg wk T r out) : out = .error .overflow ∨ ReadEl μ lw ow cfg wk T r out := by
  unfold SReadEl at h
  unfold ReadEl
  rcases sReadElPlan_sim μ lw ow cfg wk T r with hs | hs
  · rw [hs] at h; exact .inl h
  · rw [hs] at h
    cases hp : readElPlan μ lw ow cfg wk T r with
    | error f => rw [hp] at h; exact .inr h
    | ok p =>
      rw [hp] at h
      obtain ⟨j, sched, hi, rfl⟩ := h
      rcases sExecPlan_sim lw wk.wgt j p sched with he | he
      · exact .inl he
      · exact .inr ⟨j, sched, hi, he⟩

theorem sReadMmHeader_sim (μ : Mapping) (lw ow : Nat) (r : Reader) : OvSim (sReadMmHeader μ lw ow r) (readMmHeader μ lw ow r) := by
  unfold sReadMmHeader readMmHeader
  refine OvSim.same (fun ok => ?_)
  split
  · exact .refl _
  · refine OvSim.same (fun r => (readInt_sim μ lw _).bind' (fun a => ?_))
    have hw := wrapS_sim lw (a.1 + 1)
    rcases hw with hw | hw
    · exact .inl (by simp only [hw]; rfl)
    · simp only [hw]
      show OvSim (Except.ok _ >>= _) _
      rw [ok_bind]
      refine OvSim.same (fun r => (readInt_sim μ lw _).bind' (fun b => ?_))
      have hw := wrapS_sim lw (b.1 + 1)
      rcases hw with hw | hw
      · exact .inl (by simp only [hw]; rfl)
      · simp only [hw]
        show OvSim (Except.ok _ >>= _) _
        rw [ok_bind]
        exact OvSim.same (fun r => (readInt_sim μ ow _).bind' (fun b => .refl _))

theorem sMmCheck_sim (ow : Nat) (cfg : Cfg) (nrows ncols nnz : Nat) (c : Coo W) :
    OvSim (sMmCheck ow cfg nrows ncols nnz c) (mmCheck ow cfg nrows ncols nnz c) := by
  unfold sMmCheck mmCheck
  split
  · split
    · cases hs : cfg.sym
      · cases hl : cfg.sl <;> exact .refl _
      · cases hw : wrapS ow (2 * c.m) with
        | error f =>
          have hf : f = .overflow := by
            unfold wrapS at hw
            split at hw
            · cases hw
            · injection hw with hw; exact hw.symm
          subst hf
          exact .inl (by simp only [if_true]; rfl)
        | ok k =>
          obtain ⟨rfl, hlt⟩ := wrapS_ok hw
          rw [twice_lt (Nat.lt_of_lt_of_le hlt (pow_pred_le ow))]
          simp only [if_true]; exact .refl _
    · exact .refl _
  · exact .refl _

/-- Every execution of `read_mm_` with signed types overflows or is one with the unsigned types. -/
theorem SReadMm.sim {μ : Mapping} {lw ow : Nat} {cfg : Cfg} {wk : WKind W} {T : Nat} {r : Reader} {out : M (Coo W)}
    (h : SReadMm μ lw ow cfg wk T r out) : out = .error .overflow ∨ ReadMm μ lw ow cfg wk T r out := by
  unfold SReadMm at h
  unfold ReadMm
  rcases sReadMmHeader_sim μ lw ow r with hs | hs
  · rw [hs] at h; exact .inl h
  · rw [hs] at h
    cases hp : readMmHeader μ lw ow r with
    | error f => rw [hp] at h; exact .inr h
    | ok p =>
      rw [hp] at h
      obtain ⟨nrows, ncols, nnz, r'⟩ := p
      obtain ⟨o, ho, rfl⟩ := h
      rcases ho.sim with rfl | ho
      · exact .inl rfl
      · cases o with
        | error f => exact .inr ⟨_, ho, rfl⟩
        | ok c =>
          rcases sMmCheck_sim ow cfg nrows ncols nnz c with hc | hc
          · exact .inl hc
          · exact .inr ⟨_, ho, hc⟩

/-! ## nondeterministic computations -/

/-- Every outcome of `p` is an overflow or an outcome of `q`. -/
def RSim (p q : R α) : Prop := ∀ o, p.Out o → o = .error .overflow ∨ q.Out o

theorem RSim.refl (p : R α) : RSim p p := fun _ h => .inr h

theorem RSim.bind {p q : R α} {k l : α → R β} (h : RSim p q) (hk : ∀ a, RSim (k a) (l a)) : RSim (p >>= k) (q >>= l) := by
  rintro out ⟨o, ho, hout⟩
  rcases h o ho with rfl | hq
  · exact .inl hout
  · cases o with
    | error f => exact .inr ⟨.error f, hq, hout⟩
    | ok a =>
      rcases hk a out hout with h' | h'
      · exact .inl h'
      · exact .inr ⟨.ok a, hq, h'⟩

theorem RSim.same {p : R α} {k l : α → R β} (hk : ∀ a, RSim (k a) (l a)) : RSim (p >>= k) (p >>= l) :=
  (RSim.refl p).bind hk

theorem runActs_sim {A : Type} {f g : A → S → M S} (h : ∀ a s, OvSim (f a s) (g a s)) :
    ∀ (l : List A) (s : S), OvSim (runActs f l s) (runActs g l s)
  | [], _ => .refl _
  | a :: l, s => by
    simp only [runActs]
    exact (h a s).bind' (fun s' => runActs_sim h l s')

theorem RSim.par {A : Type} {f g : A → S → M S} (h : ∀ a s, OvSim (f a s) (g a s)) (ts : List (List A)) (s : S) :
    RSim (R.par f ts s) (R.par g ts s) := by
  rintro out ⟨sched, hs, rfl⟩
  rcases runActs_sim h sched s with h' | h'
  · exact .inl h'
  · exact .inr ⟨sched, hs, h'⟩

theorem incAct_sim (ow : Nat) (x : List Nat) (e : Nat) (degs : List Nat) : OvSim (incAct (ow - 1) x e degs) (incAct ow x e degs) := by
  unfold incAct
  refine OvSim.same (fun v => OvSim.same (fun d => ?_))
  by_cases h : d + 1 < 2 ^ (ow - 1)
  · rw [if_pos h, if_pos (Nat.lt_of_lt_of_le h (pow_pred_le ow))]; exact .refl _
  · rw [if_neg h]; exact .inl rfl

theorem countDegrees_sim (ow T n m : Nat) (x : List Nat) : RSim (countDegrees (ow - 1) T n m x) (countDegrees ow T n m x) := by
  unfold countDegrees
  exact RSim.same (fun _ => RSim.same (fun _ => RSim.same (fun _ => RSim.same (fun _ => RSim.same (fun _ => RSim.same (fun _ =>
    (RSim.par (incAct_sim ow x) _ _).bind (fun _ => RSim.refl _)))))))

theorem plusOne_small {lw n : Nat} (h : n + 1 < 2 ^ (lw - 1)) : plusOne lw n = n + 1 := by
  unfold plusOne
  split
  · rfl
  · exact Nat.mod_eq_of_lt (Nat.lt_of_lt_of_le h (pow_pred_le lw))

/-- `convert_coo_` with signed types is the one for unsigned ordinals of one bit less, if `n+1` fits. -/
theorem sConvertCoo_eq {lw n : Nat} (ow T : Nat) (wgt : Bool) (c : Coo W) (hn : c.n = n) (h : n + 1 < 2 ^ (lw - 1)) :
    sConvertCoo lw ow T wgt c = convertCoo lw (ow - 1) T wgt c := by
  subst hn
  simp only [sConvertCoo, convertCoo, wrapS_lt h, plusOne_small h]
  funext out
  exact propext ⟨fun ⟨o, ho, hh⟩ => by cases ho; exact hh, fun hh => ⟨_, rfl, hh⟩⟩

theorem sConvertCoo_sim (lw ow T : Nat) (wgt : Bool) (c : Coo W) : RSim (sConvertCoo lw ow T wgt c) (convertCoo lw ow T wgt c) := by
  by_cases h : c.n + 1 < 2 ^ (lw - 1)
  · rw [sConvertCoo_eq ow T wgt c rfl h]
    unfold convertCoo
    exact RSim.same (fun _ => (countDegrees_sim ow T _ _ _).bind (fun _ => RSim.refl _))
  · rintro out ⟨o, ho, hh⟩
    unfold wrapS at ho
    rw [if_neg h] at ho
    cases ho
    exact .inl hh

end Pigo
