import Verif.Lemmas.Race

/-!
# The accesses account for the steps
-/

namespace Pigo

open Spec (Access reads writes atomics Accounted)

variable {α β S W : Type}

/-- A region without race whose accesses are all there. -/
theorem drf_par {step : α → S → M S} {foot : α → S → List Access} {threads : List (List α)} {s : S} (ha : Accounted step foot)
    (h : ¬ Spec.Race step foot threads s) : (D.par step foot threads s).drf := ⟨h, ha⟩

/-- The locations of a state that is one array. -/
def lookArr (arr : String) (s : List α) (n : String) (i : Nat) : Option α := if n = arr then s[i]? else none

/-- The locations of two arrays. -/
def lookPair (arr arr' : String) (s : List α × List β) (n : String) (i : Nat) : Option (α ⊕ β) :=
  if n = arr then (s.1[i]?).map Sum.inl else if n = arr' then (s.2[i]?).map Sum.inr else none

theorem mbind_inv {o : M α} {k : α → M β} {b : β} (h : (o >>= k) = .ok b) : ∃ a, o = .ok a ∧ k a = .ok b := by
  cases o with
  | error f => cases h
  | ok a => exact ⟨a, rfl, h⟩

theorem load_get {a : List α} {i : Nat} {v : α} (h : load a i = .ok v) : a[i]? = some v := by
  unfold load at h
  cases h1 : a[i]? with
  | none => rw [h1] at h; cases h
  | some x => rw [h1] at h; injection h with h; rw [h]

theorem storeOk_inv {a a' : List α} {i : Nat} {v : α} (h : store a i v = .ok a') : i < a.length ∧ a' = a.set i v := by
  unfold store at h
  split at h
  · injection h with h; exact ⟨by assumption, h.symm⟩
  · cases h

theorem store_eq {a : List α} {i : Nat} (v : α) (h : i < a.length) : store a i v = .ok (a.set i v) := if_pos h

theorem lt_of_isSome {a b : List α} {i : Nat} (h : (b[i]?).isSome = (a[i]?).isSome) (hi : i < a.length) : i < b.length := by
  rw [List.getElem?_eq_getElem hi] at h
  cases hb : b[i]? with
  | none => rw [hb] at h; cases h
  | some _ => exact (List.getElem?_eq_some_iff.mp hb).1

theorem set_get_ne {a : List α} {i j : Nat} {v : α} (h : (a.set i v)[j]? ≠ a[j]?) : j = i := by
  apply Classical.byContradiction
  intro hne
  exact h (List.getElem?_set_ne (fun e => hne e.symm))

theorem set_map_ne {γ : Type} {k : α → γ} {a : List α} {i j : Nat} {v : α} (h : Option.map k (a.set i v)[j]? ≠ Option.map k a[j]?) : j = i :=
  set_get_ne (v := v) (a := a) (i := i) (fun e => h (by rw [e]))

theorem set_get_same {a b : List α} {i : Nat} {v : α} (ha : i < a.length) (hb : i < b.length) : (b.set i v)[i]? = (a.set i v)[i]? := by
  rw [List.getElem?_set_self hb, List.getElem?_set_self ha]

theorem lookArr_whole (arr : String) (s s' : List α) (h : ∀ n i, lookArr arr s n i = lookArr arr s' n i) : s = s' := by
  refine List.ext_getElem? fun i => ?_
  have := h arr i
  simpa [lookArr] using this

theorem lookPair_whole {arr arr' : String} (hne : arr' ≠ arr) (s s' : List α × List β)
    (h : ∀ n i, lookPair arr arr' s n i = lookPair arr arr' s' n i) : s = s' := by
  have inlI : ∀ a b : α, (Sum.inl a : α ⊕ β) = .inl b → a = b := fun _ _ h => by injection h
  have inrI : ∀ a b : β, (Sum.inr a : α ⊕ β) = .inr b → a = b := fun _ _ h => by injection h
  refine Prod.ext (List.ext_getElem? fun i => ?_) (List.ext_getElem? fun i => ?_)
  · have := h arr i
    simp only [lookPair, if_true] at this
    exact Option.map_injective (fun a b => inlI a b) this
  · have := h arr' i
    simp only [lookPair, if_neg hne, if_true] at this
    exact Option.map_injective (fun a b => inrI a b) this

/-- Steps that store to element `idx` of an array a value that does not depend on the array. -/
def StoresTo (f : β → List α → M (List α)) (idx : β → Nat) : Prop :=
  ∀ a s s', f a s = .ok s' → idx a < s.length ∧ ∃ v, s' = s.set (idx a) v ∧ ∀ s₂, idx a < s₂.length → f a s₂ = .ok (s₂.set (idx a) v)

theorem stores_storeAct : StoresTo (storeAct (α := α)) Prod.fst := by
  intro a s s' h
  obtain ⟨hi, rfl⟩ := storeOk_inv h
  exact ⟨hi, a.2, rfl, fun s₂ h => store_eq _ h⟩

theorem stores_copyAct (src : List α) : StoresTo (copyAct src) id := by
  intro a s s' h
  unfold copyAct at h
  cases h1 : load src a with
  | error f => rw [h1] at h; cases h
  | ok v =>
    rw [h1] at h
    obtain ⟨hi, rfl⟩ := storeOk_inv h
    refine ⟨hi, v, rfl, fun s₂ h => ?_⟩
    unfold copyAct
    rw [h1]
    exact store_eq _ h

theorem acc_stores {f : β → List α → M (List α)} {idx : β → Nat} (hf : StoresTo f idx) (arr : String) (F : β → List Access)
    (hin : ∀ a, writes arr (idx a) ∈ F a) (hw : ∀ a, ∀ x ∈ F a, x.kind ≠ .read → x = writes arr (idx a)) :
    Accounted f (fun a _ => F a) := by
  refine ⟨α, lookArr arr, lookArr_whole arr, fun a s s' h => ?_⟩
  obtain ⟨hi, v, rfl, hs⟩ := hf a s s' h
  refine ⟨fun n i hne => ⟨_, hin a, ?_⟩, fun s₂ hsz _ => ?_⟩
  · by_cases hn : n = arr
    · subst hn
      simp only [lookArr, if_true] at hne
      exact ⟨rfl, (set_get_ne hne).symm, fun h => nomatch h⟩
    · simp [lookArr, hn] at hne
  · have := hsz arr (idx a)
    simp only [lookArr, if_true] at this
    have hi2 := lt_of_isSome this hi
    refine ⟨rfl, _, hs s₂ hi2, fun x hx hk => ?_⟩
    rw [hw a x hx hk]
    simp only [lookArr, writes, if_true]
    exact set_get_same hi hi2

theorem acc_stores2 {γ δ : Type} {f : γ → List α → M (List α)} {g : δ → List β → M (List β)} {idx : γ → Nat} {idx' : δ → Nat}
    (hf : StoresTo f idx) (hg : StoresTo g idx') {arr arr' : String} (hn : arr' ≠ arr) (F : γ ⊕ δ → List Access)
    (hin : ∀ a, writes arr (idx a) ∈ F (.inl a)) (hw : ∀ a, ∀ x ∈ F (.inl a), x.kind ≠ .read → x = writes arr (idx a))
    (hin' : ∀ a, writes arr' (idx' a) ∈ F (.inr a)) (hw' : ∀ a, ∀ x ∈ F (.inr a), x.kind ≠ .read → x = writes arr' (idx' a)) :
    Accounted (sumStep f g) (fun a _ => F a) := by
  refine ⟨α ⊕ β, lookPair arr arr', lookPair_whole hn, fun a s s' h => ?_⟩
  cases a with
  | inl a =>
    simp only [sumStep] at h
    cases h1 : f a s.1 with
    | error f => rw [h1] at h; cases h
    | ok t =>
      rw [h1] at h
      injection h with h
      subst h
      obtain ⟨hi, v, rfl, hs⟩ := hf _ _ _ h1
      refine ⟨fun n i hne => ⟨_, hin a, ?_⟩, fun s₂ hsz _ => ?_⟩
      · by_cases hn1 : n = arr
        · subst hn1
          simp only [lookPair, if_true] at hne
          exact ⟨rfl, (set_map_ne hne).symm, fun h => nomatch h⟩
        · simp [lookPair, hn1] at hne
      · have := hsz arr (idx a)
        simp only [lookPair, if_true, Option.isSome_map] at this
        have hi2 := lt_of_isSome this hi
        refine ⟨rfl, (s₂.1.set (idx a) v, s₂.2), ?_, fun x hx hk => ?_⟩
        · simp only [sumStep, hs _ hi2]
          rfl
        · rw [hw a x hx hk]
          simp only [lookPair, writes, if_true]
          rw [set_get_same hi hi2]
  | inr a =>
    simp only [sumStep] at h
    cases h1 : g a s.2 with
    | error f => rw [h1] at h; cases h
    | ok t =>
      rw [h1] at h
      injection h with h
      subst h
      obtain ⟨hi, v, rfl, hs⟩ := hg _ _ _ h1
      refine ⟨fun n i hne => ⟨_, hin' a, ?_⟩, fun s₂ hsz _ => ?_⟩
      · by_cases hn1 : n = arr
        · simp [lookPair, hn1] at hne
        · by_cases hn2 : n = arr'
          · subst hn2
            simp only [lookPair, if_neg hn, if_true] at hne
            exact ⟨rfl, (set_map_ne hne).symm, fun h => nomatch h⟩
          · simp [lookPair, hn1, hn2] at hne
      · have := hsz arr' (idx' a)
        simp only [lookPair, if_neg hn, if_true, Option.isSome_map] at this
        have hi2 := lt_of_isSome this hi
        refine ⟨rfl, (s₂.1, s₂.2.set (idx' a) v), ?_, fun x hx hk => ?_⟩
        · simp only [sumStep, hs _ hi2]
          rfl
        · rw [hw' a x hx hk]
          simp only [lookPair, writes, if_neg hn, if_true]
          rw [set_get_same hi hi2]

/-- StoresTo to one array. -/
theorem acc_store (arr : String) : Accounted (storeAct (α := α)) (footStore arr) :=
  acc_stores stores_storeAct arr (fun a => [writes arr a.1]) (fun _ => List.mem_singleton.mpr rfl)
    (fun _ _ hx _ => List.mem_singleton.mp hx)

/-- StoresTo to two arrays. -/
theorem acc_store2 {arr arr' : String} (hn : arr' ≠ arr) :
    Accounted (sumStep (storeAct (α := α)) (storeAct (α := β))) (footStore2 arr arr') := by
  have h := acc_stores2 (stores_storeAct (α := α)) (stores_storeAct (α := β)) hn
    (fun a => match a with | .inl a => [writes arr a.1] | .inr a => [writes arr' a.1]) (fun _ => List.mem_singleton.mpr rfl)
    (fun _ _ hx _ => List.mem_singleton.mp hx) (fun _ => List.mem_singleton.mpr rfl) (fun _ _ hx _ => List.mem_singleton.mp hx)
  have e : (footStore2 arr arr' : _ → List α × List β → _) =
      (fun (a : (Nat × α) ⊕ (Nat × β)) _ => match a with | .inl a => [writes arr a.1] | .inr a => [writes arr' a.1]) := by
    funext a s; cases a <;> rfl
  rw [e]; exact h

theorem copy_only {arr arr' : String} {i : Nat} (x : Access) (hx : x ∈ [reads arr' i, writes arr i]) (hk : x.kind ≠ .read) : x = writes arr i := by
  rcases List.mem_cons.mp hx with rfl | hx
  · exact absurd rfl hk
  · exact List.mem_singleton.mp hx

/-- Copies of elements of an array. -/
theorem acc_copy (src : List α) (arr : String) : Accounted (copyAct src) (footCopy arr) :=
  acc_stores (stores_copyAct src) arr (fun i => [reads ("other." ++ arr) i, writes arr i]) (fun _ => by simp) (fun _ => copy_only)

/-- Copies of elements of two arrays. -/
theorem acc_copy2 (src : List α) (src' : List β) : Accounted (sumStep (copyAct src) (copyAct src'))
    (fun a s => match a with | .inl i => footCopy "x_" i s | .inr i => footCopy "y_" i s) := by
  have h := acc_stores2 (stores_copyAct src) (stores_copyAct src') (arr := "x_") (arr' := "y_") (by decide)
    (fun a => match a with | .inl i => [reads ("other." ++ "x_") i, writes "x_" i] | .inr i => [reads ("other." ++ "y_") i, writes "y_" i])
    (fun _ => by simp) (fun _ => copy_only) (fun _ => by simp) (fun _ => copy_only)
  exact h

/-- Atomic increments. -/
theorem acc_inc (ow : Nat) (x : List Nat) : Accounted (incAct ow x) (footInc x) := by
  refine ⟨Nat, lookArr "all_degs", lookArr_whole _, fun a s s' h => ?_⟩
  unfold incAct load at h
  cases h1 : x[a]? with
  | none => rw [h1] at h; cases h
  | some v =>
    rw [h1] at h
    simp only [ok_bind] at h
    cases h2 : s[v]? with
    | none => rw [h2] at h; cases h
    | some d =>
      rw [h2] at h
      simp only [ok_bind] at h
      split at h
      case isFalse => cases h
      case isTrue hd =>
      obtain ⟨hi, rfl⟩ := storeOk_inv h
      refine ⟨fun n i hne => ⟨atomics "all_degs" v, by simp [footInc, h1], ?_⟩, fun s₂ hsz hag => ⟨rfl, s₂.set v (d + 1), ?_, fun x hx hk => ?_⟩⟩
      · by_cases hn : n = "all_degs"
        · subst hn
          simp only [lookArr, if_true] at hne
          exact ⟨rfl, (set_get_ne hne).symm, fun h => nomatch h⟩
        · simp [lookArr, hn] at hne
      · have := hag (atomics "all_degs" v) (by simp [footInc, h1]) (fun h => nomatch h)
        simp only [lookArr, atomics, if_true] at this
        simp only [incAct, load, h1, ok_bind, this, h2, hd, if_true]
        exact store_eq _ (List.getElem?_eq_some_iff.mp (this.trans h2)).1
      · have := hag (atomics "all_degs" v) (by simp [footInc, h1]) (fun h => nomatch h)
        simp only [lookArr, atomics, if_true] at this
        simp only [footInc, h1, List.mem_singleton] at hx
        subst hx
        simp only [lookArr, atomics, if_true]
        exact set_get_same hi (List.getElem?_eq_some_iff.mp (this.trans h2)).1

/-! ## Edges -/

/-- The arrays of a COO. -/
def lookMem (s : Mem W) (n : String) (i : Nat) : Option (Nat ⊕ W) :=
  if n = "x_" then (s.x[i]?).map .inl else if n = "y_" then (s.y[i]?).map .inl else if n = "w_" then (s.w[i]?).map .inr else none

theorem lookMem_x (s : Mem W) (i : Nat) : lookMem s "x_" i = (s.x[i]?).map .inl := rfl
theorem lookMem_y (s : Mem W) (i : Nat) : lookMem s "y_" i = (s.y[i]?).map .inl := rfl
theorem lookMem_w (s : Mem W) (i : Nat) : lookMem s "w_" i = (s.w[i]?).map .inr := rfl

theorem map_inl_inj {a b : Option α} (h : a.map (Sum.inl : α → α ⊕ β) = b.map .inl) : a = b :=
  Option.map_injective (fun _ _ h => by injection h) h

theorem map_inr_inj {a b : Option β} (h : a.map (Sum.inr : β → α ⊕ β) = b.map .inr) : a = b :=
  Option.map_injective (fun _ _ h => by injection h) h

theorem lookMem_whole (s s' : Mem W) (h : ∀ n i, lookMem s n i = lookMem s' n i) : s = s' := by
  cases s; cases s'
  have hx := List.ext_getElem? fun i => map_inl_inj (h "x_" i)
  have hy := List.ext_getElem? fun i => map_inl_inj (h "y_" i)
  have hw := List.ext_getElem? fun i => map_inr_inj (h "w_" i)
  simp only at hx hy hw
  subst hx; subst hy; subst hw
  rfl

theorem acc_act : Accounted (stepAct (W := W)) footAct := by
  refine ⟨Nat ⊕ W, lookMem, lookMem_whole, fun a s s' h => ?_⟩
  have hszx : ∀ s₂ : Mem W, (∀ n i, (lookMem s₂ n i).isSome = (lookMem s n i).isSome) → ∀ i, i < s.x.length → i < s₂.x.length := by
    intro s₂ h i hi
    have := h "x_" i
    rw [lookMem_x, lookMem_x, Option.isSome_map, Option.isSome_map] at this
    exact lt_of_isSome this hi
  have hszy : ∀ s₂ : Mem W, (∀ n i, (lookMem s₂ n i).isSome = (lookMem s n i).isSome) → ∀ i, i < s.y.length → i < s₂.y.length := by
    intro s₂ h i hi
    have := h "y_" i
    rw [lookMem_y, lookMem_y, Option.isSome_map, Option.isSome_map] at this
    exact lt_of_isSome this hi
  have hszw : ∀ s₂ : Mem W, (∀ n i, (lookMem s₂ n i).isSome = (lookMem s n i).isSome) → ∀ i, i < s.w.length → i < s₂.w.length := by
    intro s₂ h i hi
    have := h "w_" i
    rw [lookMem_w, lookMem_w, Option.isSome_map, Option.isSome_map] at this
    exact lt_of_isSome this hi
  have hneW : ∀ d v n i, lookMem { s with w := s.w.set d v } n i ≠ lookMem s n i → "w_" = n ∧ d = i := by
    intro d v n i hne
    by_cases h1 : n = "x_"
    · simp [lookMem, h1] at hne
    · by_cases h2 : n = "y_"
      · simp [lookMem, h2] at hne
      · by_cases h3 : n = "w_"
        · subst h3
          rw [lookMem_w, lookMem_w] at hne
          exact ⟨rfl, (set_map_ne hne).symm⟩
        · simp [lookMem, h1, h2, h3] at hne
  cases a with
  | setX i v =>
    simp only [stepAct] at h
    obtain ⟨x', hx, h⟩ := mbind_inv h
    injection h with h; subst h
    obtain ⟨hi, rfl⟩ := storeOk_inv hx
    refine ⟨fun n j hne => ⟨_, List.mem_singleton.mpr rfl, ?_⟩, fun s₂ hsz _ => ⟨rfl, { s₂ with x := s₂.x.set i v }, ?_, fun q hq _ => ?_⟩⟩
    · by_cases h1 : n = "x_"
      · subst h1
        rw [lookMem_x, lookMem_x] at hne
        exact ⟨rfl, (set_map_ne hne).symm, fun h => nomatch h⟩
      · simp [lookMem, h1] at hne
    · simp only [stepAct, store_eq v (hszx s₂ hsz i hi)]; rfl
    · rw [List.mem_singleton.mp hq]
      show lookMem _ "x_" i = lookMem _ "x_" i
      rw [lookMem_x, lookMem_x]
      rw [set_get_same hi (hszx s₂ hsz i hi)]
  | setY i v =>
    simp only [stepAct] at h
    obtain ⟨x', hx, h⟩ := mbind_inv h
    injection h with h; subst h
    obtain ⟨hi, rfl⟩ := storeOk_inv hx
    refine ⟨fun n j hne => ⟨_, List.mem_singleton.mpr rfl, ?_⟩, fun s₂ hsz _ => ⟨rfl, { s₂ with y := s₂.y.set i v }, ?_, fun q hq _ => ?_⟩⟩
    · by_cases h1 : n = "x_"
      · simp [lookMem, h1] at hne
      · by_cases h2 : n = "y_"
        · subst h2
          rw [lookMem_y, lookMem_y] at hne
          exact ⟨rfl, (set_map_ne hne).symm, fun h => nomatch h⟩
        · simp [lookMem, h1, h2] at hne
    · simp only [stepAct, store_eq v (hszy s₂ hsz i hi)]; rfl
    · rw [List.mem_singleton.mp hq]
      show lookMem _ "y_" i = lookMem _ "y_" i
      rw [lookMem_y, lookMem_y]
      rw [set_get_same hi (hszy s₂ hsz i hi)]
  | setW i v =>
    simp only [stepAct] at h
    obtain ⟨x', hx, h⟩ := mbind_inv h
    injection h with h; subst h
    obtain ⟨hi, rfl⟩ := storeOk_inv hx
    refine ⟨fun n j hne => ⟨_, List.mem_singleton.mpr rfl, (hneW _ _ _ _ hne).1, (hneW _ _ _ _ hne).2, fun h => nomatch h⟩,
      fun s₂ hsz _ => ⟨rfl, { s₂ with w := s₂.w.set i v }, ?_, fun q hq _ => ?_⟩⟩
    · simp only [stepAct, store_eq v (hszw s₂ hsz i hi)]; rfl
    · rw [List.mem_singleton.mp hq]
      show lookMem _ "w_" i = lookMem _ "w_" i
      rw [lookMem_w, lookMem_w]
      rw [set_get_same hi (hszw s₂ hsz i hi)]
  | copyW d c =>
    simp only [stepAct] at h
    cases h1 : s.w[c]? with
    | none => rw [h1] at h; cases h
    | some v =>
      rw [h1] at h
      obtain ⟨x', hx, h⟩ := mbind_inv h
      injection h with h; subst h
      obtain ⟨hi, rfl⟩ := storeOk_inv hx
      refine ⟨fun n j hne => ⟨writes "w_" d, by simp [footAct], (hneW _ _ _ _ hne).1, (hneW _ _ _ _ hne).2, fun h => nomatch h⟩,
        fun s₂ hsz hag => ⟨rfl, { s₂ with w := s₂.w.set d v }, ?_, fun q hq hk => ?_⟩⟩
      · have := hag (reads "w_" c) (by simp [footAct]) (fun h => nomatch h)
        have := map_inr_inj (show (s₂.w[c]?).map (Sum.inr : W → Nat ⊕ W) = (s.w[c]?).map .inr from this)
        simp only [stepAct, this, h1, store_eq v (hszw s₂ hsz d hi)]; rfl
      · rw [copy_only (arr := "w_") (arr' := "w_") (i := d) q ?_ hk]
        · show lookMem _ "w_" d = lookMem _ "w_" d
          rw [lookMem_w, lookMem_w]
          rw [set_get_same hi (hszw s₂ hsz d hi)]
        · simp only [footAct, List.mem_cons, List.not_mem_nil, or_false] at hq ⊢
          rcases hq with rfl | rfl
          · exact absurd rfl hk
          · exact .inr rfl

/-! ## Tensors -/

/-- The arrays of a tensor. -/
def lookTMem (s : TMem W) (n : String) (i : Nat) : Option (Nat ⊕ W) :=
  if n = "c_" then (s.c[i]?).map .inl else if n = "w_" then (s.w[i]?).map .inr else none

theorem lookTMem_c (s : TMem W) (i : Nat) : lookTMem s "c_" i = (s.c[i]?).map .inl := rfl
theorem lookTMem_w (s : TMem W) (i : Nat) : lookTMem s "w_" i = (s.w[i]?).map .inr := rfl

theorem acc_tact : Accounted (stepT (W := W)) footTAct := by
  refine ⟨Nat ⊕ W, lookTMem, fun s s' h => ?_, fun a s s' h => ?_⟩
  · cases s; cases s'
    have hx := List.ext_getElem? fun i => map_inl_inj (h "c_" i)
    have hw := List.ext_getElem? fun i => map_inr_inj (h "w_" i)
    simp only at hx hw
    subst hx; subst hw
    rfl
  cases a with
  | setC i v =>
    simp only [stepT] at h
    obtain ⟨x', hx, h⟩ := mbind_inv h
    injection h with h; subst h
    obtain ⟨hi, rfl⟩ := storeOk_inv hx
    refine ⟨fun n j hne => ⟨_, List.mem_singleton.mpr rfl, ?_⟩, fun s₂ hsz _ => ?_⟩
    · by_cases h1 : n = "c_"
      · subst h1
        rw [lookTMem_c, lookTMem_c] at hne
        exact ⟨rfl, (set_map_ne hne).symm, fun h => nomatch h⟩
      · simp [lookTMem, h1] at hne
    · have := hsz "c_" i
      rw [lookTMem_c, lookTMem_c, Option.isSome_map, Option.isSome_map] at this
      have hi2 := lt_of_isSome this hi
      refine ⟨rfl, { s₂ with c := s₂.c.set i v }, ?_, fun q hq _ => ?_⟩
      · simp only [stepT, store_eq v hi2]; rfl
      · rw [List.mem_singleton.mp hq]
        show lookTMem _ "c_" i = lookTMem _ "c_" i
        rw [lookTMem_c, lookTMem_c]
        rw [set_get_same hi hi2]
  | setW i v =>
    simp only [stepT] at h
    obtain ⟨x', hx, h⟩ := mbind_inv h
    injection h with h; subst h
    obtain ⟨hi, rfl⟩ := storeOk_inv hx
    refine ⟨fun n j hne => ⟨_, List.mem_singleton.mpr rfl, ?_⟩, fun s₂ hsz _ => ?_⟩
    · by_cases h1 : n = "c_"
      · simp [lookTMem, h1] at hne
      · by_cases h2 : n = "w_"
        · subst h2
          rw [lookTMem_w, lookTMem_w] at hne
          exact ⟨rfl, (set_map_ne hne).symm, fun h => nomatch h⟩
        · simp [lookTMem, h1, h2] at hne
    · have := hsz "w_" i
      rw [lookTMem_w, lookTMem_w, Option.isSome_map, Option.isSome_map] at this
      have hi2 := lt_of_isSome this hi
      refine ⟨rfl, { s₂ with w := s₂.w.set i v }, ?_, fun q hq _ => ?_⟩
      · simp only [stepT, store_eq v hi2]; rfl
      · rw [List.mem_singleton.mp hq]
        show lookTMem _ "w_" i = lookTMem _ "w_" i
        rw [lookTMem_w, lookTMem_w]
        rw [set_get_same hi hi2]

/-! ## The scatter loop -/

/-- The arrays of the scatter loop, and the variables `this_offset_pos` of its iterations. -/
def lookScat (s : Scatter W) (n : String) (i : Nat) : Option (Option Nat ⊕ (Nat ⊕ W)) :=
  if n = "label_degs" then (s.degs[i]?).map (fun d => .inr (.inl d))
  else if n = "this_offset_pos" then some (.inl (s.pos i))
  else if n = "endpoints_" then (s.endpoints[i]?).map (fun d => .inr (.inl d))
  else if n = "weights_" then (s.weights[i]?).map (fun d => .inr (.inr d))
  else none

theorem lookScat_d (s : Scatter W) (i : Nat) : lookScat s "label_degs" i = (s.degs[i]?).map (fun d => .inr (.inl d)) := rfl
theorem lookScat_p (s : Scatter W) (i : Nat) : lookScat s "this_offset_pos" i = some (.inl (s.pos i)) := rfl
theorem lookScat_e (s : Scatter W) (i : Nat) : lookScat s "endpoints_" i = (s.endpoints[i]?).map (fun d => .inr (.inl d)) := rfl
theorem lookScat_w (s : Scatter W) (i : Nat) : lookScat s "weights_" i = (s.weights[i]?).map (fun d => .inr (.inr d)) := rfl

theorem map_inj {γ : Type} {k : α → γ} (hk : ∀ a b, k a = k b → a = b) {a b : Option α} (h : a.map k = b.map k) : a = b :=
  Option.map_injective (fun a b => hk a b) h

theorem lookScat_whole (s s' : Scatter W) (h : ∀ n i, lookScat s n i = lookScat s' n i) : s = s' := by
  cases s; cases s'
  have hd := List.ext_getElem? fun i => map_inj (by intro a b h; injection h with h; injection h) (h "label_degs" i)
  have he := List.ext_getElem? fun i => map_inj (by intro a b h; injection h with h; injection h) (h "endpoints_" i)
  have hw := List.ext_getElem? fun i => map_inj (by intro a b h; injection h with h; injection h) (h "weights_" i)
  have hp := funext fun i => Sum.inl.inj (Option.some.inj (h "this_offset_pos" i))
  simp only at hd he hw hp
  subst hd; subst he; subst hw; subst hp
  rfl

theorem scatSlot_same {x offsets : List Nat} {s s₂ : Scatter W} {e : Nat} (h : s₂.pos e = s.pos e) :
    scatSlot x offsets s₂ e = scatSlot x offsets s e := by unfold scatSlot; rw [h]

theorem acc_scat (x y : List Nat) (w : List W) (offsets : List Nat) : Accounted (scatStep x y w offsets) (footScat x offsets) := by
  refine ⟨_, lookScat, lookScat_whole, fun a s s' h => ?_⟩
  cases a with
  | cap e =>
    simp only [scatStep] at h
    obtain ⟨v, hv, h⟩ := mbind_inv h
    obtain ⟨d, hd, h⟩ := mbind_inv h
    split at h
    · cases h
    rename_i hd0
    obtain ⟨dg, hdg, h⟩ := mbind_inv h
    injection h with h; subst h
    obtain ⟨hi, rfl⟩ := storeOk_inv hdg
    have hx : x[e]? = some v := load_get hv
    have hdv : s.degs[v]? = some d := load_get hd
    have hfoot : ∀ t : Scatter W, footScat x offsets (.cap e) t = [writes "this_offset_pos" e, atomics "label_degs" v] := by
      intro t; simp only [footScat, hx]
    rw [hfoot]
    refine ⟨fun n j hne => ?_, fun s₂ hsz hag => ?_⟩
    · by_cases h1 : n = "label_degs"
      · subst h1
        rw [lookScat_d, lookScat_d] at hne
        exact ⟨atomics "label_degs" v, by simp, rfl, (set_map_ne hne).symm, fun h => nomatch h⟩
      · by_cases h2 : n = "this_offset_pos"
        · subst h2
          rw [lookScat_p, lookScat_p] at hne
          refine ⟨writes "this_offset_pos" e, by simp, rfl, ?_, fun h => nomatch h⟩
          apply Classical.byContradiction
          intro hj
          exact hne (by simp only [if_neg (fun h : j = e => hj h.symm)])
        · exfalso; apply hne; simp only [lookScat, if_neg h1, if_neg h2]
    · have h1 := hag (atomics "label_degs" v) (by simp) (fun h => nomatch h)
      have h2 := map_inj (by intro a b h; injection h with h; injection h)
        (show (s₂.degs[v]?).map (fun d => (Sum.inr (.inl d) : Option Nat ⊕ (Nat ⊕ W))) = (s.degs[v]?).map (fun d => .inr (.inl d)) from h1)
      rw [hdv] at h2
      have hi2 := (List.getElem?_eq_some_iff.mp h2).1
      refine ⟨hfoot s₂, { s₂ with degs := s₂.degs.set v (d - 1), pos := fun i => if i = e then some d else s₂.pos i }, ?_, fun q hq hk => ?_⟩
      · have h3 : load s₂.degs v = .ok d := by simp only [load, h2]
        simp only [scatStep, hv, ok_bind, h3, if_neg hd0, store_eq (d - 1) hi2]
      · simp only [List.mem_cons, List.not_mem_nil, or_false] at hq
        rcases hq with rfl | rfl
        · show lookScat _ "this_offset_pos" e = lookScat _ "this_offset_pos" e
          rw [lookScat_p, lookScat_p]
          simp
        · show lookScat _ "label_degs" v = lookScat _ "label_degs" v
          rw [lookScat_d, lookScat_d]
          rw [set_get_same hi hi2]
  | wr e =>
    simp only [scatStep] at h
    obtain ⟨dst, hv, h⟩ := mbind_inv h
    obtain ⟨p, hp, h⟩ := mbind_inv h
    obtain ⟨ep, hep, h⟩ := mbind_inv h
    injection h with h; subst h
    obtain ⟨hi, rfl⟩ := storeOk_inv hep
    have hfoot : footScat x offsets (.wr e) s = [reads "this_offset_pos" e, writes "endpoints_" p] := by simp only [footScat, hp]
    rw [hfoot]
    refine ⟨fun n j hne => ?_, fun s₂ hsz hag => ?_⟩
    · by_cases h3 : n = "endpoints_"
      · subst h3
        rw [lookScat_e, lookScat_e] at hne
        exact ⟨writes "endpoints_" p, by simp, rfl, (set_map_ne hne).symm, fun h => nomatch h⟩
      · exfalso; apply hne; simp only [lookScat, if_neg h3]
    · have h1 := hag (reads "this_offset_pos" e) (by simp) (fun h => nomatch h)
      have h2 : s₂.pos e = s.pos e := by
        have : (some (Sum.inl (s₂.pos e)) : Option (Option Nat ⊕ (Nat ⊕ W))) = some (.inl (s.pos e)) := h1
        injection this with this
        injection this
      have h3 := scatSlot_same (x := x) (offsets := offsets) h2
      rw [hp] at h3
      have h4 := hsz "endpoints_" p
      rw [lookScat_e, lookScat_e, Option.isSome_map, Option.isSome_map] at h4
      have hi2 := lt_of_isSome h4 hi
      refine ⟨by simp only [footScat, h3], { s₂ with endpoints := s₂.endpoints.set p dst }, ?_, fun q hq hk => ?_⟩
      · simp only [scatStep, hv, ok_bind, h3, store_eq dst hi2]
      · simp only [List.mem_cons, List.not_mem_nil, or_false] at hq
        rcases hq with rfl | rfl
        · exact absurd rfl hk
        · show lookScat _ "endpoints_" p = lookScat _ "endpoints_" p
          rw [lookScat_e, lookScat_e]
          rw [set_get_same hi hi2]
  | ww e =>
    simp only [scatStep] at h
    obtain ⟨dst, hv, h⟩ := mbind_inv h
    obtain ⟨p, hp, h⟩ := mbind_inv h
    obtain ⟨ep, hep, h⟩ := mbind_inv h
    injection h with h; subst h
    obtain ⟨hi, rfl⟩ := storeOk_inv hep
    have hfoot : footScat x offsets (.ww e) s = [reads "this_offset_pos" e, writes "weights_" p] := by simp only [footScat, hp]
    rw [hfoot]
    refine ⟨fun n j hne => ?_, fun s₂ hsz hag => ?_⟩
    · by_cases h3 : n = "weights_"
      · subst h3
        rw [lookScat_w, lookScat_w] at hne
        exact ⟨writes "weights_" p, by simp, rfl, (set_map_ne hne).symm, fun h => nomatch h⟩
      · exfalso; apply hne; simp only [lookScat, if_neg h3]
    · have h1 := hag (reads "this_offset_pos" e) (by simp) (fun h => nomatch h)
      have h2 : s₂.pos e = s.pos e := by
        have : (some (Sum.inl (s₂.pos e)) : Option (Option Nat ⊕ (Nat ⊕ W))) = some (.inl (s.pos e)) := h1
        injection this with this
        injection this
      have h3 := scatSlot_same (x := x) (offsets := offsets) h2
      rw [hp] at h3
      have h4 := hsz "weights_" p
      rw [lookScat_w, lookScat_w, Option.isSome_map, Option.isSome_map] at h4
      have hi2 := lt_of_isSome h4 hi
      refine ⟨by simp only [footScat, h3], { s₂ with weights := s₂.weights.set p dst }, ?_, fun q hq hk => ?_⟩
      · simp only [scatStep, hv, ok_bind, h3, store_eq dst hi2]
      · simp only [List.mem_cons, List.not_mem_nil, or_false] at hq
        rcases hq with rfl | rfl
        · exact absurd rfl hk
        · show lookScat _ "weights_" p = lookScat _ "weights_" p
          rw [lookScat_w, lookScat_w]
          rw [set_get_same hi hi2]

/-! ## Sorting -/

theorem mapE_load_inv {a : List α} : ∀ {l : List Nat} {us : List α}, mapE (load a) l = .ok us → us.length = l.length ∧ ∀ i ∈ l, i < a.length
  | [], us, h => by cases h; exact ⟨rfl, fun i hi => nomatch hi⟩
  | i :: l, us, h => by
    unfold mapE at h
    obtain ⟨b, hb, h⟩ := mbind_inv h
    obtain ⟨bs, hbs, h⟩ := mbind_inv h
    injection h with h; subst h
    have ih := mapE_load_inv hbs
    refine ⟨by simp [ih.1], fun j hj => ?_⟩
    rcases List.mem_cons.mp hj with rfl | hj
    · exact (List.getElem?_eq_some_iff.mp (load_get hb)).1
    · exact ih.2 j hj

theorem mapE_load_congr {a b : List α} : ∀ {l : List Nat}, (∀ i ∈ l, b[i]? = a[i]?) → mapE (load b) l = mapE (load a) l
  | [], _ => rfl
  | i :: l, h => by
    unfold mapE
    have h1 : load b i = load a i := by unfold load; rw [h i (List.mem_cons_self ..)]
    rw [h1, mapE_load_congr fun j hj => h j (List.mem_cons_of_mem _ hj)]

theorem putRange_get {a vs : List α} {s : Nat} (h : ∀ i ∈ List.range' s vs.length, i < a.length) (i : Nat) :
    (putRange a s vs)[i]? = if s ≤ i ∧ i < s + vs.length then vs[i - s]? else a[i]? := by
  unfold putRange
  by_cases h0 : vs.length = 0
  · have : vs = [] := List.length_eq_zero_iff.mp h0
    subst this
    rw [if_neg (by simp only [List.length_nil]; omega)]
    simp
  · have hlen : s + vs.length ≤ a.length := by
      have := h (s + vs.length - 1) (List.mem_range'_1.mpr ⟨by omega, by omega⟩)
      omega
    have h1 : (a.take s).length = s := by rw [List.length_take]; omega
    rw [List.append_assoc, List.getElem?_append, h1]
    split
    · rw [if_neg (by omega), List.getElem?_take_of_lt (by assumption)]
    · rw [List.getElem?_append]
      split
      · rw [if_pos (by omega)]
      · rw [if_neg (by omega), List.getElem?_drop]
        congr 1
        omega

theorem acc_sort (wgt : Bool) {srtL : Nat → List Nat → List Nat} {srtP : Nat → List (Nat × W) → List (Nat × W)} (offsets : List Nat)
    (hL : ∀ v l, (srtL v l).length = l.length) (hP : ∀ v l, (srtP v l).length = l.length) :
    Accounted (sortRow wgt srtL srtP offsets) (footSort wgt offsets) := by
  refine ⟨Nat ⊕ W, lookPair "endpoints_" "weights_", lookPair_whole (by decide), fun v st st' h => ?_⟩
  have le : ∀ (t : List Nat × List W) i, lookPair "endpoints_" "weights_" t "endpoints_" i = (t.1[i]?).map .inl := fun _ _ => rfl
  have lw : ∀ (t : List Nat × List W) i, lookPair "endpoints_" "weights_" t "weights_" i = (t.2[i]?).map .inr := fun _ _ => rfl
  simp only [sortRow] at h
  obtain ⟨s, hs, h⟩ := mbind_inv h
  obtain ⟨e, he, h⟩ := mbind_inv h
  obtain ⟨us, hus, h⟩ := mbind_inv h
  obtain ⟨hul, hub⟩ := mapE_load_inv hus
  rw [List.length_range'] at hul
  cases wgt with
  | false =>
    simp only [Bool.false_eq_true, if_false] at h
    injection h with h; subst h
    have hfoot : ∀ t : List Nat × List W, footSort false offsets v t =
        (List.range' s (e - s)).flatMap (fun i => [reads "endpoints_" i, writes "endpoints_" i]) := by
      intro t; simp only [footSort, load_get hs, load_get he]; rfl
    have hlen : (srtL v us).length = e - s := by rw [hL, hul]
    rw [hfoot]
    refine ⟨fun n j hne => ?_, fun s₂ hsz hag => ?_⟩
    · by_cases h1 : n = "endpoints_"
      · subst h1
        rw [le, le, putRange_get (by rw [hlen]; exact hub), hlen] at hne
        split at hne
        · rename_i hj
          refine ⟨writes "endpoints_" j, List.mem_flatMap.mpr ⟨j, List.mem_range'_1.mpr hj, by simp⟩, rfl, rfl, fun h => nomatch h⟩
        · exact absurd rfl hne
      · exfalso; apply hne; simp only [lookPair, if_neg h1]
    · have hag' : ∀ i ∈ List.range' s (e - s), s₂.1[i]? = st.1[i]? := fun i hi =>
        map_inl_inj (hag (reads "endpoints_" i) (List.mem_flatMap.mpr ⟨i, hi, by simp⟩) (fun h => nomatch h))
      have hus2 : loadRange s₂.1 s e = .ok us := (mapE_load_congr hag').trans hus
      have hub2 := (mapE_load_inv hus2).2
      refine ⟨hfoot s₂, (putRange s₂.1 s (srtL v us), s₂.2), ?_, fun q hq hk => ?_⟩
      · simp only [sortRow, hs, he, hus2, ok_bind]
        rfl
      · obtain ⟨i, hi, hq⟩ := List.mem_flatMap.mp hq
        rw [copy_only q hq hk]
        show lookPair _ _ _ "endpoints_" i = lookPair _ _ _ "endpoints_" i
        have hi' := List.mem_range'_1.mp hi
        rw [le, le]
        simp only
        rw [putRange_get (by rw [hlen]; exact hub2), putRange_get (by rw [hlen]; exact hub), hlen, if_pos hi', if_pos hi']
  | true =>
    simp only [if_true] at h
    obtain ⟨ws, hws, h⟩ := mbind_inv h
    obtain ⟨hwl, hwb⟩ := mapE_load_inv hws
    rw [List.length_range'] at hwl
    injection h with h; subst h
    have hfoot : ∀ t : List Nat × List W, footSort true offsets v t =
        (List.range' s (e - s)).flatMap (fun i => [reads "endpoints_" i, writes "endpoints_" i, reads "weights_" i, writes "weights_" i]) := by
      intro t; simp only [footSort, load_get hs, load_get he]; rfl
    have hlen : ((srtP v (us.zip ws)).map Prod.fst).length = e - s := by
      rw [List.length_map, hP, List.length_zip, hul, hwl]; omega
    have hlen' : ((srtP v (us.zip ws)).map Prod.snd).length = e - s := by
      rw [List.length_map, hP, List.length_zip, hul, hwl]; omega
    rw [hfoot]
    refine ⟨fun n j hne => ?_, fun s₂ hsz hag => ?_⟩
    · by_cases h1 : n = "endpoints_"
      · subst h1
        rw [le, le, putRange_get (by rw [hlen]; exact hub), hlen] at hne
        split at hne
        · rename_i hj
          refine ⟨writes "endpoints_" j, List.mem_flatMap.mpr ⟨j, List.mem_range'_1.mpr hj, by simp⟩, rfl, rfl, fun h => nomatch h⟩
        · exact absurd rfl hne
      · by_cases h2 : n = "weights_"
        · subst h2
          rw [lw, lw, putRange_get (by rw [hlen']; exact hwb), hlen'] at hne
          split at hne
          · rename_i hj
            refine ⟨writes "weights_" j, List.mem_flatMap.mpr ⟨j, List.mem_range'_1.mpr hj, by simp⟩, rfl, rfl, fun h => nomatch h⟩
          · exact absurd rfl hne
        · exfalso; apply hne; simp only [lookPair, if_neg h1, if_neg h2]
    · have hag' : ∀ i ∈ List.range' s (e - s), s₂.1[i]? = st.1[i]? := fun i hi =>
        map_inl_inj (hag (reads "endpoints_" i) (List.mem_flatMap.mpr ⟨i, hi, by simp⟩) (fun h => nomatch h))
      have hagw : ∀ i ∈ List.range' s (e - s), s₂.2[i]? = st.2[i]? := fun i hi =>
        map_inr_inj (hag (reads "weights_" i) (List.mem_flatMap.mpr ⟨i, hi, by simp⟩) (fun h => nomatch h))
      have hus2 : loadRange s₂.1 s e = .ok us := (mapE_load_congr hag').trans hus
      have hws2 : loadRange s₂.2 s e = .ok ws := (mapE_load_congr hagw).trans hws
      have hub2 := (mapE_load_inv hus2).2
      have hwb2 := (mapE_load_inv hws2).2
      refine ⟨hfoot s₂, (putRange s₂.1 s ((srtP v (us.zip ws)).map Prod.fst), putRange s₂.2 s ((srtP v (us.zip ws)).map Prod.snd)), ?_, fun q hq hk => ?_⟩
      · simp only [sortRow, hs, he, hus2, hws2, ok_bind, if_true]
      · obtain ⟨i, hi, hq⟩ := List.mem_flatMap.mp hq
        have hi' := List.mem_range'_1.mp hi
        simp only [List.mem_cons, List.not_mem_nil, or_false] at hq
        rcases hq with rfl | rfl | rfl | rfl
        · exact absurd rfl hk
        · show lookPair _ _ _ "endpoints_" i = lookPair _ _ _ "endpoints_" i
          rw [le, le]
          simp only
          rw [putRange_get (by rw [hlen]; exact hub2), putRange_get (by rw [hlen]; exact hub), hlen, if_pos hi', if_pos hi']
        · exact absurd rfl hk
        · show lookPair _ _ _ "weights_" i = lookPair _ _ _ "weights_" i
          rw [lw, lw]
          simp only
          rw [putRange_get (by rw [hlen']; exact hwb2), putRange_get (by rw [hlen']; exact hwb), hlen', if_pos hi', if_pos hi']

end Pigo
