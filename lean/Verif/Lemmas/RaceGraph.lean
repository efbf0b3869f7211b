import Verif.Lemmas.RaceText
import Verif.Lemmas.GraphAny5
import Verif.Lemmas.GraphLoad

/-!
# Data races of the `.graph` loader

Pass 2 is race-free whenever the tokens it stores are the tokens pass 1 counted; the end of pass 1 is race-free when at most
one thread of each word of `have_zeros` stores.
-/

namespace Pigo

open Spec

variable {W : Type} {μ : Mapping}

/-- Rows stored lie in `(off, off + lines]` and entries in `[ep, ep + numbers)`. -/
theorem tokActs_foot {β : Type} (lw n : Nat) : ∀ (ts : List Tok) (off ep : Nat), ∀ a ∈ tokActs lw n off ep ts, ∀ s : β,
    ∀ x ∈ footStore2 "offsets_" "endpoints_" a s, (x.arr = "offsets_" ∧ off < x.idx ∧ x.idx ≤ off + nlsOf ts) ∨
      (x.arr = "endpoints_" ∧ ep ≤ x.idx ∧ x.idx < ep + (runsOf ts).length)
  | [], _, _, a, ha => by simp [tokActs] at ha
  | .nl :: ts, off, ep, a, ha => by
    intro s x hx
    rw [tokActs] at ha
    split at ha
    · have e1 : nlsOf (.nl :: ts) = nlsOf ts + 1 := by simp [nlsOf]
      have e2 : runsOf (.nl :: ts) = runsOf ts := by simp [runsOf]
      rw [e1, e2]
      rcases List.mem_cons.mp ha with rfl | ha
      · rw [footStore2, List.mem_singleton] at hx
        subst hx
        exact .inl ⟨rfl, by simp [writes], by simp [writes]⟩
      · rcases tokActs_foot lw n ts _ _ a ha s x hx with ⟨h1, h2, h3⟩ | h
        · exact .inl ⟨h1, by omega, by omega⟩
        · exact .inr h
    · simp at ha
  | .int r :: ts, off, ep, a, ha => by
    intro s x hx
    rw [tokActs] at ha
    split at ha
    · have e1 : nlsOf (.int r :: ts) = nlsOf ts := by simp [nlsOf]
      have e2 : (runsOf (.int r :: ts)).length = (runsOf ts).length + 1 := by simp [runsOf]
      rw [e1, e2]
      rcases List.mem_cons.mp ha with rfl | ha
      · rw [footStore2, List.mem_singleton] at hx
        subst hx
        exact .inr ⟨rfl, by simp [writes], by simp [writes]⟩
      · rcases tokActs_foot lw n ts _ _ a ha s x hx with h | ⟨h1, h2, h3⟩
        · exact .inl h
        · exact .inr ⟨h1, by omega, by omega⟩
    · simp at ha

theorem cat_mono {F : Nat → List Tok} : ∀ {u t : Nat}, t ≤ u → nlsOf (cat F t) ≤ nlsOf (cat F u) ∧ (runsOf (cat F t)).length ≤ (runsOf (cat F u)).length
  | 0, t, h => by have : t = 0 := by omega
                  subst this; exact ⟨Nat.le_refl _, Nat.le_refl _⟩
  | u+1, t, h => by
    by_cases ht : t = u + 1
    · subst ht; exact ⟨Nat.le_refl _, Nat.le_refl _⟩
    · have := cat_mono (F := F) (u := u) (t := t) (by omega)
      rw [cat_succ, nlsOf_append, runsOf_append, List.length_append]
      omega

/-- Pass 2. -/
theorem no_race_cat {lw n base T : Nat} {F : Nat → List Tok} {S : Type} {step : GAct → S → M S} {s : S} :
    ¬ Race step (footStore2 "offsets_" "endpoints_")
      ((List.range T).map (fun t => tokActs lw n (base + nlsOf (cat F t)) (runsOf (cat F t)).length (F t))) s := by
  refine no_race_static fun t u la lb htu hla hlb a ha c hc s1 s2 x hx y hy => ?_
  obtain ⟨t', ht, rfl⟩ : ∃ t', (List.range T)[t]? = some t' ∧ _ = la := by
    rw [List.getElem?_map, Option.map_eq_some_iff] at hla; exact hla
  obtain ⟨u', hu, rfl⟩ : ∃ u', (List.range T)[u]? = some u' ∧ _ = lb := by
    rw [List.getElem?_map, Option.map_eq_some_iff] at hlb; exact hlb
  rw [List.getElem?_eq_some_iff] at ht hu
  obtain ⟨_, ht⟩ := ht
  obtain ⟨_, hu⟩ := hu
  rw [List.getElem_range] at ht hu
  subst ht hu
  have hm := cat_mono (F := F) (show t + 1 ≤ u from htu)
  rw [cat_succ, nlsOf_append, runsOf_append, List.length_append] at hm
  rintro ⟨e1, e2, _⟩
  rcases tokActs_foot lw n _ _ _ a ha s1 x hx with ⟨a1, a2, a3⟩ | ⟨a1, a2, a3⟩ <;>
    rcases tokActs_foot lw n _ _ _ c hc s2 y hy with ⟨b1, b2, b3⟩ | ⟨b1, b2, b3⟩
  · omega
  · rw [a1, b1] at e1; simp at e1
  · rw [a1, b1] at e1; simp at e1
  · omega

/-- The end of pass 1 when no two threads that saw a zero share a word of `have_zeros`. -/
theorem zeroTouch_drf {per T : Nat} {counts : List GCount}
    (h : ∀ t u, t < u → u < T → t / per = u / per →
      (counts.getD t ⟨0, 0, false⟩).zero = true → (counts.getD u ⟨0, 0, false⟩).zero = true → False) :
    (D.touch (zeroTouch per T counts)).drf := by
  refine no_race_static fun t u la lb htu hla hlb a ha c hc s1 s2 x hx y hy => ?_
  unfold zeroTouch at hla hlb
  rw [List.getElem?_map, Option.map_eq_some_iff] at hla hlb
  obtain ⟨t', ht, rfl⟩ := hla
  obtain ⟨u', hu, rfl⟩ := hlb
  rw [List.getElem?_eq_some_iff] at ht hu
  obtain ⟨_, ht⟩ := ht
  obtain ⟨hu', hu⟩ := hu
  rw [List.getElem_range] at ht hu
  subst ht hu
  split at ha
  · rename_i hz1
    split at hc
    · rename_i hz2
      rw [List.mem_singleton] at ha hc
      subst ha hc
      have hx' : x = writes "have_zeros" (t / per) := by simpa using hx
      have hy' : y = writes "have_zeros" (u / per) := by simpa using hy
      subst hx' hy'
      rintro ⟨_, e2, _⟩
      exact h t u htu (by simpa using hu') e2 hz1 hz2
    · simp at hc
  · simp at ha

theorem ownPair_drf (arr arr' : String) (T : Nat) : (D.touch ((List.range T).map (fun tid => [writes arr tid, writes arr' tid]))).drf := by
  refine no_race_static fun t u la lb htu hla hlb a ha c hc s1 s2 x hx y hy => ?_
  rw [List.getElem?_map, Option.map_eq_some_iff] at hla hlb
  obtain ⟨t', ht, rfl⟩ := hla
  obtain ⟨u', hu, rfl⟩ := hlb
  rw [List.getElem?_eq_some_iff] at ht hu
  obtain ⟨_, ht⟩ := ht
  obtain ⟨hu', hu⟩ := hu
  rw [List.getElem_range] at ht hu
  subst ht hu
  have hx' : x = a := by simpa using hx
  have hy' : y = c := by simpa using hy
  subst hx' hy'
  rintro ⟨_, e2, _⟩
  simp only [List.mem_cons, List.not_mem_nil, or_false] at ha hc
  rcases ha with rfl | rfl <;> rcases hc with rfl | rfl <;> simp only [writes] at e2 <;> omega

/-- The zeros pass 1 finds. -/
def ZerosOk (per : Nat) (μ : Mapping) (lw ow T : Nat) (r : Reader) : Prop :=
  ∀ counts, graphCounts μ lw ow T r = .ok counts → ∀ t u, t < u → u < T → t / per = u / per →
    (counts.getD t ⟨0, 0, false⟩).zero = true → (counts.getD u ⟨0, 0, false⟩).zero = true → False

theorem zerosOk_one (per : Nat) (μ : Mapping) (lw ow : Nat) (r : Reader) : ZerosOk per μ lw ow 1 r := fun _ _ t u h1 h2 => by omega

theorem zerosOk_apart (μ : Mapping) (lw ow T : Nat) (r : Reader) : ZerosOk 1 μ lw ow T r := fun _ _ t u h1 h2 h3 => by
  rw [Nat.div_one, Nat.div_one] at h3; omega

theorem readGraph_plan_drf {per lw ow T : Nat} {r : Reader} {p : GPlan} {F : Nat → List Tok} {n' b' : Nat}
    (hp : graphPlan μ lw ow T r = .ok p)
    (hF : p.threads = (List.range T).map (fun t => tokActs lw n' (b' + nlsOf (cat F t)) (runsOf (cat F t)).length (F t)))
    (hz : ZerosOk per μ lw ow T r) :
    (dReadGraphPer (W := W) per lw ow T μ r).drf := by
  refine drf_lift fun counts hc => drf_touch (zeroTouch_drf (hz counts hc)) ?_
  refine drf_touch (ownPair_drf _ _ _) ?_
  refine drf_lift fun q hq => drf_any fun jo => drf_any fun je => drf_lift fun o _ => drf_touch (touch_own _ _) ?_
  rw [hp] at hq
  cases hq
  refine drf_bind ?_ fun _ _ => drf_run _
  refine drf_par (acc_store2 (by decide)) ?_
  rw [hF]
  exact no_race_cat

theorem readGraph_toks_drf {per T : Nat} (hT : 0 < T) (hpad : 0 < μ.pad) (hend : EndsNC μ.bytes) (hgl : NoGlue μ.bytes) {lw ow : Nat}
    (hlw : T * μ.bytes.length + 2 < 2 ^ lw) (how : T * μ.bytes.length < 2 ^ ow) (hz : ZerosOk per μ lw ow T (fileReader μ)) :
    (dReadGraphPer (W := W) per lw ow T μ (fileReader μ)).drf := by
  obtain ⟨rn, rm, base, ts, threads, h1, h2, h3, h4, h5, F, hF⟩ := graphPlan_toks hT hpad hend hgl hlw how
  exact readGraph_plan_drf h1 hF hz

/-- A plan with 1-based labels: pass 1 saw no zero. -/
theorem zerosOk_base {per lw ow T : Nat} {r : Reader} {p : GPlan} (hp : graphPlan μ lw ow T r = .ok p) (hb : p.base = 1) :
    ZerosOk per μ lw ow T r := by
  intro counts hc t u _ _ _ h1 _
  unfold graphCounts at hc
  unfold graphPlan at hp
  obtain ⟨x, hx, hp⟩ := bind_inv hp
  rw [hx, ok_bind] at hc
  obtain ⟨regions, hr, hp⟩ := bind_inv hp
  simp only [hr, ok_bind] at hc
  rw [hc, ok_bind] at hp
  obtain ⟨sts, _, hp⟩ := bind_inv hp
  injection hp with hp
  subst hp
  simp only at hb
  have : counts.any (·.zero) = true := by
    rw [List.any_eq_true]
    by_cases hl : t < counts.length
    · refine ⟨counts[t], List.getElem_mem hl, ?_⟩
      rw [List.getD_eq_getElem?_getD, List.getElem?_eq_getElem hl] at h1
      exact h1
    · rw [List.getD_eq_getElem?_getD, List.getElem?_eq_none (by omega)] at h1
      simp at h1
  rw [if_pos this] at hb
  simp at hb

theorem before_eq_cat (s : List Byte) (T k : Nat) : before s T k = cat (fun tid => tk [] (regionText s T tid)) k := rfl

/-- A well-formed `.graph` file. -/
theorem readGraph_file_drf (hpad : 0 < μ.pad) {n m : Nat} {body : List (List Byte)} {tail : List Byte}
    (h : Spec.GraphFile μ.bytes n m body tail) {per lw ow T : Nat} (hT : 0 < T)
    (hn : fileBase body tail + (loadedRows body).length + 1 < 2 ^ lw)
    (hm : ((loadedRows body).flatten ++ Spec.digitRuns tail).length < 2 ^ ow)
    (hz : ¬ Spec.ZeroBased body tail ∨ ZerosOk per μ lw ow T (fileReader μ)) :
    (dReadGraphPer (W := W) per lw ow T μ (fileReader μ)).drf := by
  obtain ⟨s, h1, h2, h3⟩ := graphHeader_eq hpad h lw ow
  have hb : fileBase body tail = baseOf (tk [] s) := by
    rw [h3, baseOf, zeroIn_toks, flatten_dropWhile, fileBase]
    simp only [decide_eq_true_eq]
  obtain ⟨threads, i1, i2, i3⟩ := graphPlan_eq (lw := lw) (ow := ow) hT h1 h2
    (by rw [← hb, h3, nlsOf_toks]; unfold loadedRows at hn; omega) (by rw [h3, runsOf_toks]; exact hm)
  refine readGraph_plan_drf (F := fun tid => tk [] (regionText s T tid)) i1 i3 ?_
  rcases hz with hz | hz
  · refine zerosOk_base i1 ?_
    simp only
    rw [← hb]
    exact fileBase_one.mpr hz
  · exact hz

end Pigo
