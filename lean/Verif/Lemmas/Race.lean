import Verif.Model.Race

/-!
# Absence of races
-/

namespace Pigo

open Spec (Access reads writes atomics Race Conflict tagged)

variable {α β S W : Type}

theorem tagged_get (threads : List (List α)) (t : Nat) :
    (tagged threads)[t]? = (threads[t]?).map (fun l => l.map (fun a => (t, a))) := by
  unfold tagged; rw [List.getElem?_mapIdx]

/-- Every step in an interleaving is a step of some thread. -/
theorem Interleave.mem_thread {ls : List (List α)} {s : List α} (h : Interleave ls s) {a : α} (ha : a ∈ s) : ∃ l ∈ ls, a ∈ l := by
  induction h with
  | done => cases ha
  | @step ls i b l s hi _ ih =>
    rcases List.mem_cons.mp ha with rfl | h'
    · exact ⟨_, List.mem_of_getElem? hi, List.mem_cons_self ..⟩
    · obtain ⟨k, hk, hak⟩ := ih h'
      rcases List.mem_or_eq_of_mem_set hk with hk | rfl
      · exact ⟨k, hk, hak⟩
      · exact ⟨_, List.mem_of_getElem? hi, List.mem_cons_of_mem _ hak⟩

theorem tagged_mem {threads : List (List α)} {sched : List (Nat × α)} (h : Interleave (tagged threads) sched) {t : Nat} {a : α}
    (ha : (t, a) ∈ sched) : ∃ l, threads[t]? = some l ∧ a ∈ l := by
  obtain ⟨l, hl, hal⟩ := h.mem_thread ha
  obtain ⟨i, hi⟩ := List.mem_iff_getElem?.mp hl
  rw [tagged_get] at hi
  cases h1 : threads[i]? with
  | none => rw [h1] at hi; cases hi
  | some k =>
    rw [h1] at hi
    injection hi with hi
    subst hi
    obtain ⟨b, hb, hbe⟩ := List.mem_map.mp hal
    injection hbe with h2 h3
    subst h2; subst h3
    exact ⟨k, h1, hb⟩

theorem conflict_symm {x y : Access} (h : Conflict x y) : Conflict y x :=
  ⟨h.1.symm, h.2.1.symm, fun k => h.2.2.1 ⟨k.2, k.1⟩, fun k => h.2.2.2 ⟨k.2, k.1⟩⟩

/-- No race if the accesses of different threads never conflict, whatever the state. -/
theorem no_race_static {step : α → S → M S} {foot : α → S → List Access} {threads : List (List α)} {s : S}
    (h : ∀ (t u : Nat) la lb, t < u → threads[t]? = some la → threads[u]? = some lb → ∀ a ∈ la, ∀ b ∈ lb, ∀ s1 s2,
      ∀ x ∈ foot a s1, ∀ y ∈ foot b s2, ¬ Conflict x y) : ¬ Race step foot threads s := by
  rintro ⟨pre, mid, post, t, u, a, b, s1, s2, x, y, hi, htu, -, -, hx, hy, hc⟩
  obtain ⟨la, hla, ha⟩ := tagged_mem (t := t) (a := a) hi (by simp)
  obtain ⟨lb, hlb, hb⟩ := tagged_mem (t := u) (a := b) hi (by simp)
  rcases Nat.lt_or_gt_of_ne htu with h' | h'
  · exact h t u la lb h' hla hlb a ha b hb s1 s2 x hx y hy hc
  · exact h u t lb la h' hlb hla b hb a ha s2 s1 y hy x hx (conflict_symm hc)

/-- Accesses in the interval `[lo, hi)` of any array. -/
def Within (lo hi : Nat) (x : Access) : Prop := lo ≤ x.idx ∧ x.idx < hi

/-- No race if every thread keeps to its own interval. -/
theorem no_race_intervals {step : α → S → M S} {foot : α → S → List Access} {threads : List (List α)} {s : S}
    (lo hi : Nat → Nat) (hd : ∀ t u : Nat, t < u → u < threads.length → hi t ≤ lo u)
    (h : ∀ t l, threads[t]? = some l → ∀ a ∈ l, ∀ s1, ∀ x ∈ foot a s1, Within (lo t) (hi t) x) : ¬ Race step foot threads s := by
  refine no_race_static fun t u la lb htu hla hlb a ha b hb s1 s2 x hx y hy hc => ?_
  have h1 := h t la hla a ha s1 x hx
  have h2 := h u lb hlb b hb s2 y hy
  have h3 := hd t u htu (List.getElem?_eq_some_iff.mp hlb).1
  have := hc.2.1
  unfold Within at h1 h2
  omega

theorem getElem?_ne_of_nodup_flatten {its : List (List Nat)} (h : its.flatten.Nodup) {t u : Nat} (htu : t < u)
    {la lb : List Nat} (ha : its[t]? = some la) (hb : its[u]? = some lb) {a b : Nat} (haa : a ∈ la) (hbb : b ∈ lb) : a ≠ b := by
  rintro rfl
  rw [List.nodup_iff_pairwise_ne, List.pairwise_flatten] at h
  have h2 := h.2
  obtain ⟨hta, rfl⟩ := List.getElem?_eq_some_iff.mp ha
  obtain ⟨hub, rfl⟩ := List.getElem?_eq_some_iff.mp hb
  exact List.pairwise_iff_getElem.mp h2 t u hta hub htu a haa a hbb rfl

/-- No race in a loop whose iterations are shared out among the threads if different iterations do not conflict. -/
theorem no_race_loop {step : α → S → M S} {foot : α → S → List Access} {its : List (List Nat)} {body : Nat → List α} {s : S} {k : Nat}
    (hp : its.flatten.Perm (List.range k))
    (h : ∀ e f, e < k → f < k → e ≠ f → ∀ a ∈ body e, ∀ b ∈ body f, ∀ s1 s2, ∀ x ∈ foot a s1, ∀ y ∈ foot b s2, ¬ Conflict x y) :
    ¬ Race step foot (its.map (fun es => es.flatMap body)) s := by
  have hn : its.flatten.Nodup := hp.nodup_iff.mpr List.nodup_range
  have hlt : ∀ l ∈ its, ∀ e ∈ l, e < k := fun l hl e he =>
    List.mem_range.mp (hp.mem_iff.mp (List.mem_flatten.mpr ⟨l, hl, he⟩))
  refine no_race_static fun t u la lb htu hla hlb a ha b hb s1 s2 x hx y hy => ?_
  rw [List.getElem?_map] at hla hlb
  cases h1 : its[t]? with
  | none => rw [h1] at hla; cases hla
  | some l1 =>
    cases h2 : its[u]? with
    | none => rw [h2] at hlb; cases hlb
    | some l2 =>
      rw [h1] at hla
      rw [h2] at hlb
      injection hla with hla
      injection hlb with hlb
      subst hla; subst hlb
      obtain ⟨e, he, hae⟩ := List.mem_flatMap.mp ha
      obtain ⟨f, hf, hbf⟩ := List.mem_flatMap.mp hb
      exact h e f (hlt _ (List.mem_of_getElem? h1) e he) (hlt _ (List.mem_of_getElem? h2) f hf)
        (getElem?_ne_of_nodup_flatten hn htu h1 h2 he hf) a hae b hbf s1 s2 x hx y hy

/-- The same for loops whose iteration is one step. -/
theorem no_race_loop1 {step : Nat → S → M S} {foot : Nat → S → List Access} {its : List (List Nat)} {s : S} {k : Nat}
    (hp : its.flatten.Perm (List.range k))
    (h : ∀ e f, e < k → f < k → e ≠ f → ∀ s1 s2, ∀ x ∈ foot e s1, ∀ y ∈ foot f s2, ¬ Conflict x y) :
    ¬ Race step foot its s := by
  have := no_race_loop (step := step) (foot := foot) (its := its) (body := fun e => [e]) (s := s) hp (by
    intro e f he hf hne a ha b hb
    rw [List.mem_singleton.mp ha, List.mem_singleton.mp hb]
    exact h e f he hf hne)
  have e1 : its.map (fun es => es.flatMap (fun e => [e])) = its := by
    rw [show (fun es : List Nat => es.flatMap (fun e => [e])) = id from by funext es; simp]
    simp
  rwa [e1] at this

/-! ## Composition -/

theorem drf_run (p : R α) : (D.run p).drf := trivial

theorem drf_bind {p : D α} {k : α → D β} (hp : p.drf) (hk : ∀ a, p.out.Out (.ok a) → (k a).drf) : (p >>= k).drf := ⟨hp, hk⟩

theorem drf_then {p : R α} {k : α → D β} (hk : ∀ a, p.Out (.ok a) → (k a).drf) : (D.run p >>= k).drf := ⟨trivial, hk⟩

theorem drf_any {k : α → D β} (hk : ∀ a, (k a).drf) : (D.run (R.any α) >>= k).drf := ⟨trivial, fun a _ => hk a⟩

theorem drf_lift {o : M α} {k : α → D β} (hk : ∀ a, o = .ok a → (k a).drf) : (D.run (R.lift o) >>= k).drf :=
  ⟨trivial, fun a h => hk a (Eq.symm h)⟩

theorem drf_choose {P : α → Prop} {k : α → D β} (hk : ∀ a, P a → (k a).drf) : (D.run (R.choose P) >>= k).drf :=
  ⟨trivial, fun a h => by obtain ⟨b, hb, he⟩ := h; injection he with he; subst he; exact hk _ hb⟩

theorem drf_touch {l : List (List Access)} {k : Unit → D β} (hl : (D.touch l).drf) (hk : (k ()).drf) :
    (D.touch l >>= k).drf := ⟨hl, fun _ _ => hk⟩

theorem drf_pure (a : α) : (pure a : D α).drf := trivial

theorem touch_own (arr : String) (T : Nat) : (D.touch (ownElem arr T)).drf := by
  refine no_race_intervals (fun t => t) (fun t => t + 1) (fun t u h _ => h) fun t l hl a ha s1 x hx => ?_
  unfold ownElem at hl
  rw [List.getElem?_map] at hl
  cases h1 : (List.range T)[t]? with
  | none => rw [h1] at hl; cases hl
  | some u =>
    rw [h1] at hl
    obtain ⟨_, rfl⟩ := List.getElem?_eq_some_iff.mp h1
    injection hl with hl
    subst hl
    simp only [List.mem_singleton] at ha hx
    subst hx; subst ha
    simp [Within, writes]

end Pigo
