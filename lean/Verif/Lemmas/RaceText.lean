import Verif.Lemmas.RaceOps
import Verif.Lemmas.WriteTensor
import Verif.Lemmas.TensorLoad

/-!
# No data race in `find_offsets`, in the text writers and while a tensor is read
-/

namespace Pigo

open Spec (Access Conflict Race reads writes atomics)

variable {W : Type} {μ : Mapping}

/-! ## `find_offsets` -/

/-- The two passes over a region find the same occurrences. -/
theorem fo_lockstep (c : Byte) (base : Nat) : ∀ (n k p : Nat) (acts : List (Nat × Nat)) (r : Reader) (x : Nat × Reader)
    (y : (Nat × List (Nat × Nat)) × Reader), whileGood (foCountStep μ c) n k r = .ok x →
    whileGood (foSetStep μ c base) n (p, acts) r = .ok y →
    ∃ as, y.1.2 = acts ++ as ∧ k ≤ x.1 ∧ ∀ a ∈ as, p ≤ a.1 ∧ a.1 < p + (x.1 - k)
  | 0, k, p, acts, r, x, y, hx, hy => by
    rw [whileGood] at hx hy
    split at hx
    · cases hx
    · rename_i h
      rw [if_neg h] at hy
      cases hx; cases hy
      exact ⟨[], by simp, Nat.le_refl _, by simp⟩
  | n+1, k, p, acts, r, x, y, hx, hy => by
    rw [whileGood] at hx hy
    split at hx
    · rename_i h
      rw [if_pos h] at hy
      obtain ⟨q, hq, hx⟩ := bind_inv hx
      obtain ⟨q', hq', hy⟩ := bind_inv hy
      unfold foCountStep at hq
      unfold foSetStep at hq'
      obtain ⟨r1, h1, hq⟩ := bind_inv hq
      rw [h1, ok_bind] at hq'
      obtain ⟨b, h2, hq⟩ := bind_inv hq
      rw [h2, ok_bind] at hq'
      cases hq; cases hq'
      by_cases hb : (b == c) = true
      · simp only [hb, if_true] at hx hy
        obtain ⟨as, i1, i2, i3⟩ := fo_lockstep c base n (k + 1) (p + 1) _ r1 x y hx hy
        refine ⟨(p, r1.d - base) :: as, by rw [i1]; simp, by omega, fun a ha => ?_⟩
        rcases List.mem_cons.mp ha with rfl | ha
        · exact ⟨Nat.le_refl _, by show p < _; omega⟩
        · have := i3 a ha; omega
      · simp only [hb, if_false, Bool.false_eq_true] at hx hy
        exact fo_lockstep c base n k p _ r1 x y hx hy
    · rename_i h
      rw [if_neg h] at hy
      cases hx; cases hy
      exact ⟨[], by simp, Nat.le_refl _, by simp⟩

/-- Threads storing from the position given by the counts of the threads before. -/
theorem no_race_counts {α S : Type} {step : α → S → M S} {foot : α → S → List Access} {threads : List (List α)} {s : S} {counts : List Nat}
    (hlen : threads.length ≤ counts.length)
    (h : ∀ (t : Nat) l c, threads[t]? = some l → counts[t]? = some c → ∀ a ∈ l, ∀ s1, ∀ x ∈ foot a s1,
      Within (startOf (prefixSums 0 counts) t) (startOf (prefixSums 0 counts) t + c) x) : ¬ Race step foot threads s := by
  refine no_race_intervals (fun t => (counts.take t).sum) (fun t => (counts.take (t + 1)).sum) (fun t u h _ => take_sum_le _ h) ?_
  intro t l hl a ha s1 x hx
  have ht := (List.getElem?_eq_some_iff.mp hl).1
  have ht' : t < counts.length := by omega
  have := h t l counts[t] hl (List.getElem?_eq_getElem ht') a ha s1 x hx
  rw [startOf_eq _ _ (by omega)] at this
  rw [take_sum_succ _ ht']
  exact this

theorem zip_get {α : Type} {T : Nat} {l : List α} {t : Nat} {q : Nat × α} (h : ((List.range T).zip l)[t]? = some q) :
    q.1 = t ∧ l[t]? = some q.2 := by
  rw [List.getElem?_zip_eq_some] at h
  refine ⟨?_, h.2⟩
  obtain ⟨_, h1⟩ := List.getElem?_eq_some_iff.mp h.1
  rw [List.getElem_range] at h1
  exact h1.symm

/-- `find_offsets`, on any bytes. -/
theorem findOffsets_drf (c : Byte) (T : Nat) (r : Reader) : (dFindOffsets μ c T r).drf := by
  refine drf_touch (touch_own _ _) ?_
  refine drf_lift fun p hp => drf_any fun j => ?_
  unfold foPlan at hp
  obtain ⟨regions, h1, hp⟩ := bind_inv hp
  obtain ⟨counts, h2, hp⟩ := bind_inv hp
  obtain ⟨sts, h3, hp⟩ := bind_inv hp
  cases hp
  have l1 := mapE_len h1
  have l2 := mapE_len h2
  have l3 := mapE_len h3
  rw [List.length_zip, List.length_range] at l3
  refine drf_par (acc_store _) ?_
  refine no_race_counts (counts := counts) (by simp only; omega) fun t l k hl hk a ha s1 x hx => ?_
  obtain ⟨q, hq, hf⟩ := mapE_get h3 t hl
  obtain ⟨e1, e2⟩ := zip_get hq
  obtain ⟨rs, hrs, hc⟩ := mapE_get h2 t hk
  rw [hrs] at e2
  injection e2 with e2
  unfold foCount at hc
  unfold foSet at hf
  obtain ⟨u, hu, hc⟩ := bind_inv hc
  obtain ⟨v, hv, hf⟩ := bind_inv hf
  rw [e1, ← e2] at hv
  injection hc with hc
  injection hf with hf
  obtain ⟨as, i1, _, i3⟩ := fo_lockstep c _ _ _ _ _ _ _ _ hu hv
  rw [← hf, i1, List.nil_append] at ha
  rw [footStore, List.mem_singleton] at hx
  subst hx
  have := i3 a ha
  rw [← hc]
  exact this

/-! ## Writers -/

section
variable {size : Nat → M Nat} {ascii : Nat → Nat → M (List (Nat × Byte) × Nat)} {line : Nat → List Byte}

theorem twoPass_drf {its : List (List Nat)} (h : ∀ e ∈ its.flatten, LineOk size ascii (line e) e) : (dTwoPass size ascii its its).drf := by
  have h' : ∀ l ∈ its, ∀ e ∈ l, LineOk size ascii (line e) e := fun l hl e he => h e (List.mem_flatten.mpr ⟨l, hl, he⟩)
  refine drf_touch ?_ ?_
  · refine no_race_intervals (fun t => t + 1) (fun t => t + 2) (fun t u h _ => by omega) fun t l hl a ha s1 x hx => ?_
    rw [List.getElem?_map] at hl
    cases h1 : (List.range its.length)[t]? with
    | none => rw [h1] at hl; cases hl
    | some u =>
      rw [h1] at hl
      obtain ⟨_, rfl⟩ := List.getElem?_eq_some_iff.mp h1
      rw [List.getElem_range] at hl
      injection hl with hl
      subst hl
      rw [List.mem_singleton] at ha
      subst ha
      rw [List.mem_singleton] at hx
      subst hx
      exact ⟨Nat.le_refl _, by show t + 1 < _; omega⟩
  refine drf_lift fun sizes hs => ?_
  rw [mapE_mem_ok (g := fun l => (l.flatMap line).length) (fun l hl => sizeLoopE_ok (h' l hl))] at hs
  cases hs
  refine drf_lift fun f hf => drf_lift fun threads hth => ?_
  have hfp : f.fp = 0 := by
    unfold openW at hf
    split at hf
    · cases hf
    · cases hf; rfl
  obtain ⟨threads', h1, h2⟩ := threads_ok h' 0
  rw [hfp] at hth
  unfold posOffsets at hth
  rw [h1] at hth
  cases hth
  refine drf_par (acc_store _) ?_
  refine no_race_static fun t u la lb htu hla hlb a ha b hb s1 s2 x hx y hy hc => ?_
  have hp := List.pairwise_iff_getElem.mp h2.ordered
  obtain ⟨hi1, hi2⟩ := List.getElem?_eq_some_iff.mp hla
  obtain ⟨hj1, hj2⟩ := List.getElem?_eq_some_iff.mp hlb
  have h3 := hp t u hi1 hj1 htu a (by rw [hi2]; exact ha) b (by rw [hj2]; exact hb)
  rw [footStore, List.mem_singleton] at hx hy
  subst hx; subst hy
  have := hc.2.1
  simp only [writes] at this
  omega

end

/-! ## Tensors -/

/-- Accesses to entries before `p`, of `k` coordinates each. -/
def TBelow (k p : Nat) (x : Access) : Prop := (x.arr = "c_" ∧ x.idx < p * k) ∨ (x.arr = "w_" ∧ x.idx < p)
/-- Accesses to entries from `p` on. -/
def TAbove (k p : Nat) (x : Access) : Prop := (x.arr = "c_" ∧ p * k ≤ x.idx) ∨ (x.arr = "w_" ∧ p ≤ x.idx)

theorem TBelow.free {k p : Nat} {x y : Access} (h1 : TBelow k p x) (h2 : TAbove k p y) : ¬ Conflict x y := by
  rintro ⟨h3, h4, -⟩
  rcases h1 with ⟨a, b⟩ | ⟨a, b⟩ <;> rcases h2 with ⟨c, d⟩ | ⟨c, d⟩
  · omega
  · rw [a, c] at h3; exact absurd h3 (by decide)
  · rw [a, c] at h3; exact absurd h3 (by decide)
  · omega

theorem TBelow.mono {k p q : Nat} {x : Access} (h : TBelow k p x) (hpq : p ≤ q) : TBelow k q x := by
  have := Nat.mul_le_mul_right k hpq
  rcases h with ⟨a, b⟩ | ⟨a, b⟩
  · exact .inl ⟨a, by omega⟩
  · exact .inr ⟨a, by omega⟩

theorem TAbove.mono {k p q : Nat} {x : Access} (h : TAbove k q x) (hpq : p ≤ q) : TAbove k p x := by
  have := Nat.mul_le_mul_right k hpq
  rcases h with ⟨a, b⟩ | ⟨a, b⟩
  · exact .inl ⟨a, by omega⟩
  · exact .inr ⟨a, by omega⟩

theorem coordActs_foot {β : Type} : ∀ (xs : List Nat) (base : Nat), ∀ a ∈ (coordActs base xs : List (TAct W)), ∀ (s : β), ∀ x ∈ footTAct a s,
    x.arr = "c_" ∧ base ≤ x.idx ∧ x.idx < base + xs.length
  | [], _, a, ha => by simp [coordActs] at ha
  | c :: xs, base, a, ha => by
    intro s x hx
    rw [coordActs] at ha
    rw [List.length_cons]
    rcases List.mem_cons.mp ha with rfl | ha
    · rw [footTAct, List.mem_singleton] at hx
      subst hx
      exact ⟨rfl, Nat.le_refl _, by show base < _; omega⟩
    · obtain ⟨h1, h2, h3⟩ := coordActs_foot xs (base + 1) a ha s x hx
      exact ⟨h1, by omega, by omega⟩

theorem tActsOf_foot {β : Type} (lw : Nat) (b : Bool) (k : Nat) : ∀ (es : List (List Nat × W)) (p : Nat), (∀ en ∈ es, en.1.length = k) →
    ∀ a ∈ tActsOf lw b k p es, ∀ (s : β), ∀ x ∈ footTAct a s, TAbove k p x ∧ TBelow k (p + es.length) x
  | [], _, _, a, ha => by simp [tActsOf] at ha
  | en :: es, p, hk, a, ha => by
    intro s x hx
    rw [tActsOf] at ha
    rcases List.mem_append.mp ha with ha | ha
    · have : TAbove k p x ∧ TBelow k (p + 1) x := by
        unfold tActs at ha
        rcases List.mem_append.mp ha with ha | ha
        · obtain ⟨h1, h2, h3⟩ := coordActs_foot _ _ a ha s x hx
          rw [List.length_map, hk en (List.mem_cons_self ..)] at h3
          exact ⟨.inl ⟨h1, h2⟩, .inl ⟨h1, by rw [Nat.succ_mul]; exact h3⟩⟩
        · cases b <;> simp at ha
          subst ha
          rw [footTAct, List.mem_singleton] at hx
          subst hx
          exact ⟨.inr ⟨rfl, Nat.le_refl _⟩, .inr ⟨rfl, Nat.lt_succ_self _⟩⟩
      exact ⟨this.1, this.2.mono (by rw [List.length_cons]; omega)⟩
    · have := tActsOf_foot lw b k es (p + 1) (fun e he => hk e (List.mem_cons_of_mem _ he)) a ha s x hx
      exact ⟨this.1.mono (by omega), this.2.mono (by rw [List.length_cons]; omega)⟩

theorem tThreads_foot {β : Type} (lw : Nat) (b : Bool) (k : Nat) : ∀ (gs : List (List (List Nat × W))) (p : Nat),
    (∀ g ∈ gs, ∀ en ∈ g, en.1.length = k) → ∀ l ∈ tThreads lw b k p gs, ∀ a ∈ l, ∀ (s : β), ∀ x ∈ footTAct a s, TAbove k p x
  | [], _, _, l, hl => by simp [tThreads] at hl
  | g :: gs, p, hk, l, hl => by
    intro a ha s x hx
    rw [tThreads] at hl
    rcases List.mem_cons.mp hl with rfl | hl
    · exact (tActsOf_foot lw b k g p (hk g (List.mem_cons_self ..)) a ha s x hx).1
    · exact (tThreads_foot lw b k gs _ (fun g hg => hk g (List.mem_cons_of_mem _ hg)) l hl a ha s x hx).mono (by omega)

theorem no_race_tThreads (lw : Nat) (b : Bool) (k : Nat) (gs : List (List (List Nat × W))) (p : Nat)
    (hk : ∀ g ∈ gs, ∀ en ∈ g, en.1.length = k) {S : Type} {step : TAct W → S → M S} {s : S} :
    ¬ Race step footTAct (tThreads lw b k p gs) s := by
  have key : ∀ (gs : List (List (List Nat × W))) (p : Nat), (∀ g ∈ gs, ∀ en ∈ g, en.1.length = k) → ∀ i j : Nat, i < j → ∀ li lj,
      (tThreads lw b k p gs)[i]? = some li → (tThreads lw b k p gs)[j]? = some lj → ∀ a ∈ li, ∀ c ∈ lj, ∀ s1 s2 : S,
      ∀ x ∈ footTAct a s1, ∀ y ∈ footTAct c s2, ¬ Conflict x y := by
    intro gs
    induction gs with
    | nil => intro p _ i j _ li lj h; simp [tThreads] at h
    | cons g gs ih =>
      intro p hk i j hij li lj hi hj a ha c hc
      obtain ⟨j, rfl⟩ : ∃ k, j = k + 1 := ⟨j - 1, by omega⟩
      rw [tThreads, List.getElem?_cons_succ] at hj
      cases i with
      | zero =>
        rw [tThreads, List.getElem?_cons_zero] at hi
        injection hi with hi; subst hi
        intro s1 s2 x hx y hy
        exact (tActsOf_foot lw b k g p (hk g (List.mem_cons_self ..)) a ha s1 x hx).2.free
          (tThreads_foot lw b k gs _ (fun g hg => hk g (List.mem_cons_of_mem _ hg)) lj (List.mem_of_getElem? hj) c hc s2 y hy)
      | succ i =>
        rw [tThreads, List.getElem?_cons_succ] at hi
        exact ih _ (fun g hg => hk g (List.mem_cons_of_mem _ hg)) i j (by omega) li lj hi hj a ha c hc
  exact no_race_static fun t u la lb htu hla hlb a ha c hc s1 s2 x hx y hy => key gs p hk t u htu la lb hla hlb a ha c hc s1 s2 x hx y hy

/-- A tensor file whose lines are well formed. -/
theorem readTensorEl_lines_drf {e lw ow k : Nat} {ls : List (List Byte)} {tail : List Byte} {wk : WKind W} {ent : List Byte → Option (List Nat × W)} {T : Nat}
    (hT : 0 < T) (st : ElState μ e ls tail) (hls : ∀ l ∈ ls, TEntOk lw wk k ent l) (ho : tensorOrder μ ow wk.wgt (rd e (text ls ++ tail)) = .ok k) :
    (dReadTensorEl μ lw ow wk T (rd e (text ls ++ tail))).drf := by
  refine drf_touch (touch_own _ _) ?_
  refine drf_lift fun p hp => drf_any fun jc => drf_any fun jw => drf_bind ?_ fun _ _ => drf_pure _
  obtain ⟨gs, hgs, hplan⟩ := tensorPlan_eq (ow := ow) hT st hls ho
  rw [hplan] at hp
  cases hp
  refine drf_par acc_tact ?_
  refine no_race_tThreads _ _ _ _ _ fun g hg en hen => ?_
  have : en ∈ ls.filterMap ent := by rw [← hgs]; exact List.mem_flatten.mpr ⟨g, hg, hen⟩
  obtain ⟨l, hl, he⟩ := List.mem_filterMap.mp this
  have := (hls l hl).2
  rw [he] at this
  exact this.2

theorem readTensorEl_file_drf (hpad : 0 < μ.pad) {lw ow k : Nat} {wk : WKind W} {entry : Nat → List Byte → Option (List Nat × W)} {wp : List Nat × W → Prop}
    (hf : TFormat wk entry wp) (hk : 0 < k) (hok : Spec.TensorOk wk.wgt entry k μ.bytes) (hwp : ∀ en ∈ Spec.entries (entry k) μ.bytes, wp en)
    {T : Nat} (hT : 0 < T) (hkw : k + 1 < 2 ^ ow) :
    (dReadTensorEl μ lw ow wk T (fileReader μ)).drf := by
  have hlast := hok.good.last
  have st := elState_file hpad hlast
  have key : ∀ k', (∀ l ∈ (Spec.lines μ.bytes).dropLast, TEntOk lw wk k' (entOfT (entry k)) l) → tensorOrder μ ow wk.wgt (fileReader μ) = .ok k' →
      (dReadTensorEl μ lw ow wk T (fileReader μ)).drf := by
    intro k' hls ho
    rw [fileReader_rd] at ho ⊢
    exact readTensorEl_lines_drf hT st hls ho
  have hTEnt : ∀ l ∈ (Spec.lines μ.bytes).dropLast, TEntOk lw wk k (entOfT (entry k)) l := by
    intro l hl
    have hl' := List.dropLast_subset _ hl
    have hn := lines_noNl μ.bytes l hl'
    refine ⟨hn, ?_⟩
    unfold entOfT
    by_cases hi : Spec.ints l = []
    · rw [if_pos hi]; exact (firstIntL_nil_iff l hn).mpr hi
    · rw [if_neg hi]
      rcases hok.good.line l hl' with h | h
      · exact absurd h hi
      · obtain ⟨en, hen⟩ := Option.isSome_iff_exists.mp h
        rw [hen]
        refine hf.law lw hk hn hen (hwp en ?_)
        unfold Spec.entries
        exact List.mem_filterMap.mpr ⟨l, hl', by rw [if_neg hi, hen]⟩
  cases hfd : Spec.firstData μ.bytes with
  | some l =>
    obtain ⟨hp, hw⟩ := hok.first l hfd
    refine key k hTEnt ?_
    rw [tensorOrder_file hpad hfd hlast hp (by rw [hw]; split <;> omega), hw]
    congr 1; split <;> omega
  | none =>
    have hbl := firstData_none hfd
    refine key _ ?_ (tensorOrder_blank hpad hbl)
    intro l hl
    have hl' := List.dropLast_subset _ hl
    have hn := lines_noNl μ.bytes l hl'
    refine ⟨hn, ?_⟩
    unfold entOfT
    rw [if_pos (hbl l hl')]; exact (firstIntL_nil_iff l hn).mpr (hbl l hl')


end Pigo
