import Verif.Lemmas.EdgePlan

/-!
# Executing the stores of pass 2 in any order
-/

namespace Pigo

variable {W : Type}

/-- Array positions an action touches. -/
def Act.supp : Act W → List Nat
  | .setX i _ => [i]
  | .setY i _ => [i]
  | .setW i _ => [i]
  | .copyW d s => [d, s]

theorem store_comm {α : Type} (a : List α) {i j : Nat} (v w : α) (h : i ≠ j) :
    (store a i v >>= fun a' => store a' j w) = (store a j w >>= fun a' => store a' i v) := by
  unfold store
  by_cases hi : i < a.length <;> by_cases hj : j < a.length <;>
    simp [hi, hj, List.set_comm _ _ h]

theorem act_commute (a b : Act W) (h : ∀ i ∈ a.supp, ∀ j ∈ b.supp, i ≠ j) : Commute stepAct a b := by
  intro s
  obtain ⟨x, y, w⟩ := s
  cases a <;> cases b <;> simp [Act.supp] at h
  case setX.setX i v j v' =>
    by_cases hi : i < x.length <;> by_cases hj : j < x.length <;> simp [stepAct, store, hi, hj, List.set_comm _ _ h]
  case setY.setY i v j v' =>
    by_cases hi : i < y.length <;> by_cases hj : j < y.length <;> simp [stepAct, store, hi, hj, List.set_comm _ _ h]
  case setW.setW i v j v' =>
    by_cases hi : i < w.length <;> by_cases hj : j < w.length <;> simp [stepAct, store, hi, hj, List.set_comm _ _ h]
  case setX.setY i v j v' =>
    by_cases hi : i < x.length <;> by_cases hj : j < y.length <;> simp [stepAct, store, hi, hj]
  case setY.setX i v j v' =>
    by_cases hi : i < y.length <;> by_cases hj : j < x.length <;> simp [stepAct, store, hi, hj]
  case setX.setW i v j v' =>
    by_cases hi : i < x.length <;> by_cases hj : j < w.length <;> simp [stepAct, store, hi, hj]
  case setW.setX i v j v' =>
    by_cases hi : i < w.length <;> by_cases hj : j < x.length <;> simp [stepAct, store, hi, hj]
  case setY.setW i v j v' =>
    by_cases hi : i < y.length <;> by_cases hj : j < w.length <;> simp [stepAct, store, hi, hj]
  case setW.setY i v j v' =>
    by_cases hi : i < w.length <;> by_cases hj : j < y.length <;> simp [stepAct, store, hi, hj]
  case setX.copyW i v d c =>
    by_cases hi : i < x.length <;> by_cases hd : d < w.length <;> cases hc : w[c]? <;> simp [stepAct, store, hi, hd, hc]
  case copyW.setX d c i v =>
    by_cases hi : i < x.length <;> by_cases hd : d < w.length <;> cases hc : w[c]? <;> simp [stepAct, store, hi, hd, hc]
  case setY.copyW i v d c =>
    by_cases hi : i < y.length <;> by_cases hd : d < w.length <;> cases hc : w[c]? <;> simp [stepAct, store, hi, hd, hc]
  case copyW.setY d c i v =>
    by_cases hi : i < y.length <;> by_cases hd : d < w.length <;> cases hc : w[c]? <;> simp [stepAct, store, hi, hd, hc]
  case setW.copyW i v d c =>
    have h1 : (w.set i v)[c]? = w[c]? := List.getElem?_set_ne h.2
    by_cases hi : i < w.length <;> by_cases hd : d < w.length <;> cases hc : w[c]? <;>
      simp [stepAct, store, hi, hd, hc, h1, List.set_comm _ _ h.1]
  case copyW.setW d c i v =>
    have h1 : (w.set i v)[c]? = w[c]? := List.getElem?_set_ne (Ne.symm h.2)
    by_cases hi : i < w.length <;> by_cases hd : d < w.length <;> cases hc : w[c]? <;>
      simp [stepAct, store, hi, hd, hc, h1, List.set_comm _ _ h.1]
  case copyW.copyW d c d' c' =>
    have h1 : ∀ v, (w.set d v)[c']? = w[c']? := fun v => List.getElem?_set_ne h.1.2
    have h2 : ∀ v, (w.set d' v)[c]? = w[c]? := fun v => List.getElem?_set_ne (Ne.symm h.2.1)
    by_cases hd : d < w.length <;> by_cases hd' : d' < w.length <;>
      cases hc : w[c]? <;> cases hc' : w[c']? <;>
      simp [stepAct, store, hd, hd', hc, hc', h1, h2, List.set_comm _ _ h.1.1]

theorem entryActs_supp (b : Bool) (p : Nat) (l : List (Nat × Nat × W)) :
    ∀ a ∈ entryActs b p l, ∀ i ∈ a.supp, p ≤ i ∧ i < p + l.length := by
  intro a ha i hi
  match l, ha with
  | [(x, y, w)], ha =>
    cases b <;> simp [entryActs] at ha
    · rcases ha with rfl | rfl <;> simp [Act.supp] at hi <;> subst hi <;> simp
    · rcases ha with rfl | rfl | rfl <;> simp [Act.supp] at hi <;> subst hi <;> simp
  | (x, y, w) :: (x', y', w') :: more, ha =>
    have hl : ((x, y, w) :: (x', y', w') :: more).length = more.length + 2 := by simp
    rw [hl]
    cases b <;> simp [entryActs] at ha
    · rcases ha with rfl | rfl | rfl | rfl <;> simp [Act.supp] at hi <;> omega
    · rcases ha with rfl | rfl | rfl | rfl | rfl | rfl <;> simp [Act.supp] at hi <;> omega

theorem actsOf_supp (cfg : Cfg) (b : Bool) (p : Nat) (es : List (Nat × Nat × W)) :
    ∀ a ∈ actsOf cfg b p es, ∀ i ∈ a.supp, p ≤ i ∧ i < p + total cfg es := by
  induction es generalizing p with
  | nil => intro a ha; simp [actsOf] at ha
  | cons en es ih =>
    intro a ha i hi
    rw [actsOf, List.mem_append] at ha
    rw [total_cons]
    rcases ha with ha | ha
    · have := entryActs_supp b p _ a ha i hi; omega
    · have := ih _ a ha i hi; omega

theorem actsThreads_supp (cfg : Cfg) (b : Bool) (gs : List (List (Nat × Nat × W))) (p : Nat) :
    ∀ l ∈ actsThreads cfg b p gs, ∀ a ∈ l, ∀ i ∈ a.supp, p ≤ i := by
  induction gs generalizing p with
  | nil => intro l hl; simp [actsThreads] at hl
  | cons g gs ih =>
    intro l hl a ha i hi
    rw [actsThreads, List.mem_cons] at hl
    rcases hl with rfl | hl
    · exact (actsOf_supp cfg b p g a ha i hi).1
    · have := ih _ l hl a ha i hi; omega

theorem actsThreads_commute (cfg : Cfg) (b : Bool) (gs : List (List (Nat × Nat × W))) (p : Nat) :
    ∀ i j : Nat, i < j → ∀ li lj, (actsThreads cfg b p gs)[i]? = some li →
      (actsThreads cfg b p gs)[j]? = some lj →
      ∀ a ∈ li, ∀ c ∈ lj, Commute stepAct c a := by
  induction gs generalizing p with
  | nil => intro i j _ li lj h; simp [actsThreads] at h
  | cons g gs ih =>
    intro i j hij li lj hi hj a ha c hc
    obtain ⟨j, rfl⟩ : ∃ k, j = k + 1 := ⟨j - 1, by omega⟩
    rw [actsThreads, List.getElem?_cons_succ] at hj
    cases i with
    | zero =>
      rw [actsThreads, List.getElem?_cons_zero] at hi
      injection hi with hi; subst hi
      apply act_commute
      intro k hk k' hk'
      have h1 := actsThreads_supp cfg b gs _ lj (List.mem_of_getElem? hj) c hc k hk
      have h2 := actsOf_supp cfg b p g a ha k' hk'
      omega
    | succ i =>
      rw [actsThreads, List.getElem?_cons_succ] at hi
      exact ih _ i j (by omega) li lj hi hj a ha c hc

/-- The memory after storing the entries `es` from position `p` on. -/
def writeAt (b : Bool) : Nat → List (Nat × Nat × W) → Mem W → Mem W
  | _, [], s => s
  | p, (x, y, w) :: es, s =>
    writeAt b (p+1) es { x := s.x.set p x, y := s.y.set p y, w := if b then s.w.set p w else s.w }

theorem writeAt_append (b : Bool) (p : Nat) (l l' : List (Nat × Nat × W)) (s : Mem W) :
    writeAt b p (l ++ l') s = writeAt b (p + l.length) l' (writeAt b p l s) := by
  induction l generalizing p s with
  | nil => rfl
  | cons a l ih =>
    obtain ⟨x, y, w⟩ := a
    simp only [List.cons_append, writeAt, ih, List.length_cons]
    congr 1; omega

/-- sizes of the arrays -/
def Mem.Sized (b : Bool) (m : Nat) (s : Mem W) : Prop :=
  s.x.length = m ∧ s.y.length = m ∧ (b = true → s.w.length = m)

theorem writeAt_sized (b : Bool) (m p : Nat) (l : List (Nat × Nat × W)) (s : Mem W) (h : s.Sized b m) :
    (writeAt b p l s).Sized b m := by
  induction l generalizing p s with
  | nil => exact h
  | cons a l ih =>
    obtain ⟨x, y, w⟩ := a
    rw [writeAt]
    apply ih
    obtain ⟨h1, h2, h3⟩ := h
    refine ⟨by simpa, by simpa, fun hb => by simp [hb, h3 hb]⟩

theorem storedC_shape (cfg : Cfg) (en : Nat × Nat × W) :
    storedC cfg en = [] ∨ (∃ x y w, storedC cfg en = [(x, y, w)]) ∨
      ∃ x y w, storedC cfg en = [(x, y, w), (y, x, w)] := by
  obtain ⟨x, y, w⟩ := en
  obtain ⟨sym, ut, sl⟩ := cfg
  unfold storedC Spec.stored
  simp only
  split
  · exact .inl rfl
  · cases sym <;> cases ut <;> simp only
    · exact .inr (.inl ⟨_, _, _, rfl⟩)
    · split
      · exact .inr (.inl ⟨_, _, _, rfl⟩)
      · exact .inl rfl
    · split
      · exact .inr (.inl ⟨_, _, _, rfl⟩)
      · exact .inr (.inr ⟨_, _, _, rfl⟩)
    · exact .inr (.inl ⟨_, _, _, rfl⟩)

theorem run_entryActs (cfg : Cfg) (b : Bool) (m p : Nat) (en : Nat × Nat × W) (s : Mem W) (h : s.Sized b m)
    (hp : p + (storedC cfg en).length ≤ m) :
    runActs stepAct (entryActs b p (storedC cfg en)) s = .ok (writeAt b p (storedC cfg en) s) := by
  obtain ⟨h1, h2, h3⟩ := h
  rcases storedC_shape cfg en with hs | ⟨x, y, w, hs⟩ | ⟨x, y, w, hs⟩
  · rw [hs]; rfl
  · rw [hs] at hp ⊢
    simp at hp
    cases b
    · have hp' : p < m := hp
      simp [entryActs, runActs, stepAct, store, h1, h2, hp', writeAt]
    · have h3 := h3 rfl
      have hp' : p < m := hp
      simp [entryActs, runActs, stepAct, store, h1, h2, h3, hp', writeAt]
  · rw [hs] at hp ⊢
    simp at hp
    have hp1 : p < m := by omega
    have hp2 : p + 1 < m := by omega
    cases b
    · simp [entryActs, runActs, stepAct, store, h1, h2, hp1, hp2, writeAt]
    · have h3 := h3 rfl
      simp [entryActs, runActs, stepAct, store, h1, h2, h3, hp1, hp2, writeAt]

theorem run_actsOf (cfg : Cfg) (b : Bool) (m : Nat) (es : List (Nat × Nat × W)) :
    ∀ (p : Nat) (s : Mem W), s.Sized b m → p + total cfg es ≤ m →
    runActs stepAct (actsOf cfg b p es) s = .ok (writeAt b p (es.flatMap (storedC cfg)) s) := by
  induction es with
  | nil => intro p s _ _; rfl
  | cons en es ih =>
    intro p s hs hp
    rw [total_cons] at hp
    rw [actsOf, runActs_append, run_entryActs cfg b m p en s hs (by omega), ok_bind,
      ih _ _ (writeAt_sized b m p _ s hs) (by omega), List.flatMap_cons, writeAt_append]

/-- A list overwritten from the start with `vs`. -/
theorem overwrite {α : Type} (vs : List α) : ∀ (pre junk : List α), junk.length = vs.length →
    (vs.zipIdx pre.length).foldl (fun l v => l.set v.2 v.1) (pre ++ junk) = pre ++ vs := by
  induction vs with
  | nil => intro pre junk h; simp at h; simp [h]
  | cons v vs ih =>
    intro pre junk h
    cases junk with
    | nil => simp at h
    | cons j junk =>
      simp only [List.zipIdx_cons, List.foldl_cons]
      have : (pre ++ j :: junk).set pre.length v = (pre ++ [v]) ++ junk := by simp
      rw [this]
      have := ih (pre ++ [v]) junk (by simpa using h)
      simp only [List.length_append, List.length_cons, List.length_nil, Nat.zero_add] at this
      rw [this]; simp

theorem writeAt_x (b : Bool) (p : Nat) (l : List (Nat × Nat × W)) (s : Mem W) :
    (writeAt b p l s).x = ((l.map (·.1)).zipIdx p).foldl (fun l v => l.set v.2 v.1) s.x ∧
    (writeAt b p l s).y = ((l.map (·.2.1)).zipIdx p).foldl (fun l v => l.set v.2 v.1) s.y ∧
    (writeAt b p l s).w = if b then ((l.map (·.2.2)).zipIdx p).foldl (fun l v => l.set v.2 v.1) s.w else s.w := by
  induction l generalizing p s with
  | nil => cases b <;> simp [writeAt]
  | cons a l ih =>
    obtain ⟨x, y, w⟩ := a
    rw [writeAt]
    obtain ⟨i1, i2, i3⟩ := ih (p+1) { x := s.x.set p x, y := s.y.set p y, w := if b then s.w.set p w else s.w }
    rw [i1, i2, i3]
    cases b <;> simp

theorem writeAt_full (b : Bool) (l : List (Nat × Nat × W)) (s : Mem W) (h : s.Sized b l.length) :
    (writeAt b 0 l s).x = l.map (·.1) ∧ (writeAt b 0 l s).y = l.map (·.2.1) ∧
    (b = true → (writeAt b 0 l s).w = l.map (·.2.2)) := by
  obtain ⟨i1, i2, i3⟩ := writeAt_x b 0 l s
  obtain ⟨h1, h2, h3⟩ := h
  refine ⟨?_, ?_, ?_⟩
  · rw [i1]; exact overwrite (l.map (·.1)) [] s.x (by simpa using h1)
  · rw [i2]; exact overwrite (l.map (·.2.1)) [] s.y (by simpa using h2)
  · intro hb
    rw [i3, if_pos hb]; exact overwrite (l.map (·.2.2)) [] s.w (by simpa using h3 hb)

theorem alloc_sized (b : Bool) (j : Junk W) (m : Nat) : (allocCoo b j m).Sized b m := by
  refine ⟨by simp [allocCoo, alloc], by simp [allocCoo, alloc], fun hb => by simp [allocCoo, alloc, hb]⟩

theorem writeAt_w_false (p : Nat) (l : List (Nat × Nat × W)) (s : Mem W) : (writeAt false p l s).w = s.w := by
  have := (writeAt_x false p l s).2.2
  simpa using this

/-- The COO that the text reader must produce for the file entries `es`. -/
def cooOf (lw : Nat) (cfg : Cfg) (wgt : Bool) (es : List (Nat × Nat × W)) : Coo W :=
  let out := es.flatMap (storedC cfg)
  let nrows := (Spec.maxOf ((prims cfg es).map (·.1)) + 1) % 2 ^ lw
  let ncols := (Spec.maxOf ((prims cfg es).map (·.2.1)) + 1) % 2 ^ lw
  { x := out.map (·.1), y := out.map (·.2.1), w := if wgt then out.map (·.2.2) else [],
    m := out.length, nrows := nrows, ncols := ncols, n := max nrows ncols }

/-- Every execution of `read_el_` on such a file produces exactly this COO. -/
theorem readEl_det {μ : Mapping} {e lw ow : Nat} {ls : List (List Byte)} {tail : List Byte} {wk : WKind W}
    {ent : List Byte → Option (Nat × Nat × W)} (cfg : Cfg) {T : Nat} (hT : 0 < T)
    (st : ElState μ e ls tail) (hls : ∀ l ∈ ls, EntOk lw wk ent l)
    (hd : WTrivial wk ∨ ∀ en ∈ ls.filterMap ent, storedC cfg en ≠ [])
    (hm : total cfg (ls.filterMap ent) < 2 ^ ow) (out : M (Coo W))
    (hrun : ReadEl μ lw ow cfg wk T (rd e (text ls ++ tail)) out) :
    out = .ok (cooOf lw cfg wk.wgt (ls.filterMap ent)) := by
  obtain ⟨gs, hgs, _, hplan⟩ := readElPlan_eq (ow := ow) cfg hT st hls hd
  unfold ReadEl at hrun
  rw [hplan] at hrun
  obtain ⟨j, sched, hint, rfl⟩ := hrun
  unfold execPlan
  simp only at hint ⊢
  rw [interleave_eq_flatten stepAct hint (actsThreads_commute cfg wk.wgt gs 0), actsThreads_flatten, hgs,
    Nat.mod_eq_of_lt hm,
    run_actsOf cfg wk.wgt (total cfg (ls.filterMap ent)) _ 0 _ (alloc_sized _ j _) (by omega), ok_bind]
  have hfull := writeAt_full wk.wgt ((ls.filterMap ent).flatMap (storedC cfg))
    (allocCoo wk.wgt j (total cfg (ls.filterMap ent))) (alloc_sized _ j _)
  obtain ⟨f1, f2, f3⟩ := hfull
  unfold cooOf
  congr 1
  rw [f1, f2]
  have hn : ∀ a b : Nat, (if a > b then a else b) = max a b := by intro a b; split <;> omega
  simp only [hn]
  congr 1
  cases hw : wk.wgt with
  | true => rw [hw] at f3; rw [f3 rfl]; rfl
  | false => rw [writeAt_w_false]; rfl

/-- Some execution exists (the threads one after the other). -/
theorem readEl_exists {μ : Mapping} {lw ow : Nat} {wk : WKind W} (cfg : Cfg) {T : Nat} (r : Reader) (j : Junk W) :
    ∃ out, ReadEl μ lw ow cfg wk T r out := by
  unfold ReadEl
  cases h : readElPlan μ lw ow cfg wk T r with
  | error f => exact ⟨_, rfl⟩
  | ok p => exact ⟨_, j, _, interleave_flatten p.threads, rfl⟩

end Pigo
