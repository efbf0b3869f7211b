import Verif.Lemmas.RaceErase
import Verif.Lemmas.RaceBin
import Verif.Lemmas.Safety
import Verif.Lemmas.MatrixMarket

/-!
# No data race while an edge list is read
-/

namespace Pigo

open Spec (Access Conflict Race reads writes atomics)

variable {W : Type} {μ : Mapping} {e : Nat}

theorem footAct_supp {β : Type} {a : Act W} {s : β} {x : Access} (h : x ∈ footAct a s) : x.idx ∈ a.supp := by
  cases a <;> simp only [footAct, List.mem_singleton, List.mem_cons, List.not_mem_nil, or_false] at h
  · subst h; simp [Act.supp, writes]
  · subst h; simp [Act.supp, writes]
  · subst h; simp [Act.supp, writes]
  · rcases h with rfl | rfl <;> simp [Act.supp, writes, reads]

theorem actIn_supp {lo hi : Nat} {a : Act W} (h : actIn lo hi a) : ∀ i ∈ a.supp, lo ≤ i ∧ i < hi := by
  cases a <;> simp_all [actIn, Act.supp]

theorem take_sum_le (l : List Nat) {a b : Nat} (h : a ≤ b) : (l.take a).sum ≤ (l.take b).sum := by
  rw [show b = a + (b - a) by omega, List.take_add, List.sum_append]; omega

theorem take_sum_succ (l : List Nat) {a : Nat} (h : a < l.length) : (l.take (a + 1)).sum = (l.take a).sum + l[a] := by
  rw [List.take_add_one, List.sum_append, List.getElem?_eq_getElem h]; simp

/-- Unweighted, any bytes, any flags. -/
theorem readEl_any_drf {s : List Byte} (v : View μ e s) (hr : Readable μ e) (lw ow : Nat) (cfg : Cfg) (T : Nat) :
    (dReadEl μ lw ow cfg wNone T (rd e s)).drf := by
  refine drf_touch (touch_own _ _) ?_
  refine drf_lift fun p hp => drf_any fun j => drf_bind ?_ fun _ _ => drf_pure _
  rw [readElPlan_any v hr lw ow cfg T] at hp
  cases hp
  have hlen : ((List.range T).map (cntL μ e lw cfg s T)).length = T := by simp
  refine drf_par acc_act (no_race_intervals (fun t => (((List.range T).map (cntL μ e lw cfg s T)).take t).sum)
    (fun t => (((List.range T).map (cntL μ e lw cfg s T)).take (t + 1)).sum) (fun t u h _ => take_sum_le _ h) ?_)
  intro t l hl a ha s1 x hx
  simp only [elPlan, List.map_map, List.getElem?_map] at hl
  cases h1 : (List.range T)[t]? with
  | none => rw [h1] at hl; cases hl
  | some tid =>
    rw [h1] at hl
    obtain ⟨ht, rfl⟩ := List.getElem?_eq_some_iff.mp h1
    rw [List.getElem_range] at hl
    rw [List.length_range] at ht
    injection hl with hl
    subst hl
    have h2 := actIn_supp ((region_facts v hr lw cfg ht _).2.2.2.2 a ha) _ (footAct_supp hx)
    rw [startOf_eq _ _ (by rw [hlen]; omega)] at h2
    have h3 := take_sum_succ ((List.range T).map (cntL μ e lw cfg s T)) (a := t) (by rw [hlen]; omega)
    simp only [List.getElem_map, List.getElem_range] at h3
    exact ⟨h2.1, by show _ < _; omega⟩

/-- The stores of the threads of a plan never conflict. -/
theorem no_race_actsThreads (cfg : Cfg) (b : Bool) (gs : List (List (Nat × Nat × W))) (p : Nat) {S : Type}
    {step : Act W → S → M S} {s : S} : ¬ Race step footAct (actsThreads cfg b p gs) s := by
  have key : ∀ (gs : List (List (Nat × Nat × W))) (p : Nat), ∀ i j : Nat, i < j → ∀ li lj, (actsThreads cfg b p gs)[i]? = some li →
      (actsThreads cfg b p gs)[j]? = some lj → ∀ a ∈ li, ∀ c ∈ lj, ∀ k ∈ a.supp, ∀ k' ∈ c.supp, k < k' := by
    intro gs
    induction gs with
    | nil => intro p i j _ li lj h; simp [actsThreads] at h
    | cons g gs ih =>
      intro p i j hij li lj hi hj a ha c hc
      obtain ⟨j, rfl⟩ : ∃ k, j = k + 1 := ⟨j - 1, by omega⟩
      rw [actsThreads, List.getElem?_cons_succ] at hj
      cases i with
      | zero =>
        rw [actsThreads, List.getElem?_cons_zero] at hi
        injection hi with hi; subst hi
        intro k hk k' hk'
        have h1 := actsThreads_supp cfg b gs _ lj (List.mem_of_getElem? hj) c hc k' hk'
        have h2 := actsOf_supp cfg b p g a ha k hk
        omega
      | succ i =>
        rw [actsThreads, List.getElem?_cons_succ] at hi
        exact ih _ i j (by omega) li lj hi hj a ha c hc
  refine no_race_static fun t u la lb htu hla hlb a ha c hc s1 s2 x hx y hy hxy => ?_
  have := key gs p t u htu la lb hla hlb a ha c hc _ (footAct_supp hx) _ (footAct_supp hy)
  have := hxy.2.1
  omega

/-- Weighted or not, on files of well-formed lines none of which is dropped. -/
theorem readEl_lines_drf {lw ow : Nat} {ls : List (List Byte)} {tail : List Byte} {wk : WKind W}
    {ent : List Byte → Option (Nat × Nat × W)} (cfg : Cfg) {T : Nat} (hT : 0 < T)
    (st : ElState μ e ls tail) (hls : ∀ l ∈ ls, EntOk lw wk ent l)
    (hd : WTrivial wk ∨ ∀ en ∈ ls.filterMap ent, storedC cfg en ≠ []) :
    (dReadEl μ lw ow cfg wk T (rd e (text ls ++ tail))).drf := by
  refine drf_touch (touch_own _ _) ?_
  refine drf_lift fun p hp => drf_any fun j => drf_bind ?_ fun _ _ => drf_pure _
  obtain ⟨gs, _, _, hplan⟩ := readElPlan_eq (ow := ow) cfg hT st hls hd
  rw [hplan] at hp
  cases hp
  exact drf_par acc_act (no_race_actsThreads _ _ _ _)

/-- A region of `readMmHeader`'s remainder and the checks after it are sequential. -/
theorem readMm_drf {lw ow : Nat} {cfg : Cfg} {wk : WKind W} {T : Nat} {r : Reader}
    (h : ∀ q, readMmHeader μ lw ow r = .ok q → (dReadEl μ lw ow cfg wk T q.2.2.2).drf) :
    (dReadMm μ lw ow cfg wk T r).drf :=
  drf_lift fun q hq => drf_bind (h q hq) fun _ _ => drf_run _

/-- An edge list file whose lines are well formed and none of which is dropped. -/
theorem readEl_file_drf (hpad : 0 < μ.pad) {lw ow : Nat} {wk : WKind W}
    {entry : List Byte → Option (Nat × Nat × W)} {wp : Nat × Nat × W → Prop} (hf : FormatOk lw wk entry wp)
    (hok : Spec.FileOk entry μ.bytes) (hwp : ∀ en ∈ Spec.entries entry μ.bytes, wp en)
    (cfg : Cfg) {T : Nat} (hT : 0 < T)
    (hd : WTrivial wk ∨ ∀ en ∈ (Spec.entries entry μ.bytes).map (modL lw), storedC cfg en ≠ []) :
    (dReadEl μ lw ow cfg wk T (fileReader μ)).drf := by
  have he : (Spec.lines μ.bytes).dropLast.filterMap (entOf lw entry) =
      (Spec.entries entry μ.bytes).map (modL lw) := by
    rw [filterMap_entOf, entries_dropLast hok.last]
  rw [fileReader_rd]
  rw [← he] at hd
  exact readEl_lines_drf cfg hT (elState_file hpad hok.last)
    (fun l hl => entOk_lines hf hok.line hwp l (List.dropLast_subset _ hl)) hd

/-- The same starting at the first integer. -/
theorem readEl_first_drf {lw ow : Nat} {ls : List (List Byte)} {tail : List Byte} {wk : WKind W}
    {ent : List Byte → Option (Nat × Nat × W)} (cfg : Cfg) {T : Nat} (hT : 0 < T)
    (st : ElState μ e ls tail) (hls : ∀ l ∈ ls, EntOk lw wk ent l)
    (hd : WTrivial wk ∨ ∀ en ∈ ls.filterMap ent, storedC cfg en ≠ []) :
    (dReadEl μ lw ow cfg wk T (rd e (firstIntL (text ls ++ tail)))).drf := by
  by_cases hne : firstIntL (text ls ++ tail) = []
  · rw [hne]
    have st' : ElState μ e [] [] := ⟨by simpa using st.view.of_suffix List.nil_suffix, st.rdb, (fun _ h => nomatch h), (fun h => nomatch h), by show toStop isDigit false [] = []; simp [toStop]⟩
    exact readEl_lines_drf (ls := []) (tail := []) (ent := ent) cfg hT st' (by simp) (.inr (by simp))
  · obtain ⟨A, l, en, B, h1, h2, h3, h4⟩ := region_first ls hls st.tint hne
    have hl := hls l (by rw [h1]; simp)
    have hlaw : LineLaw lw wk l en := by have := hl.2; rw [h3] at this; exact this
    rw [h4]
    let ent' : List Byte → Option (Nat × Nat × W) := fun l' => if l' = firstIntL l then some en else ent l'
    have hB : ∀ l' ∈ B, ent' l' = ent l' := by
      intro l' hl'
      show (if _ then _ else _) = _
      split
      · rename_i heq
        have hk := hls l' (by rw [h1]; simp [hl'])
        have hlaw' := hlaw.first
        rw [← heq] at hlaw'
        cases h5 : ent l' with
        | none =>
          have := hk.2; rw [h5] at this
          exact absurd this hlaw'.hx
        | some en' =>
          have := hk.2; rw [h5] at this
          rw [hlaw'.unique this]
      · rfl
    have hfm : (firstIntL l :: B).filterMap ent' = ls.filterMap ent := by
      have e1 : B.filterMap ent' = B.filterMap ent := by
        clear h1 h2 h4
        induction B with
        | nil => rfl
        | cons b B ih =>
          rw [List.filterMap_cons, List.filterMap_cons, hB b (List.mem_cons_self ..),
            ih (fun l' h => hB l' (List.mem_cons_of_mem _ h))]
      have e2 : ent' (firstIntL l) = some en := if_pos rfl
      rw [List.filterMap_cons_some e2, e1, h1, List.filterMap_append, h2, List.filterMap_cons_some h3]; rfl
    have hsuf : firstIntL l ++ nl :: (text B ++ tail) <:+ text ls ++ tail := by
      rw [← h4]; exact toStop_suffix _ _ _
    have st' : ElState μ e (firstIntL l :: B) tail := by
      refine ⟨?_, st.rdb, ?_, st.tnonl, st.tint⟩
      · rw [text_cons, List.append_assoc, List.cons_append]; exact st.view.of_suffix hsuf
      · intro l' hl'
        rcases List.mem_cons.mp hl' with rfl | hl'
        · exact not_mem_firstInt hl.1
        · exact st.nonl l' (by rw [h1]; simp [hl'])
    rw [← hfm] at hd
    have := readEl_lines_drf (lw := lw) (ow := ow) cfg hT st' ?_ hd
    · rw [text_cons, List.append_assoc, List.cons_append] at this; exact this
    intro l' hl'
    rcases List.mem_cons.mp hl' with rfl | hl'
    · refine ⟨not_mem_firstInt hl.1, ?_⟩
      rw [show ent' (firstIntL l) = some en from if_pos rfl]
      exact hlaw.first
    · have := hls l' (by rw [h1]; simp [hl'])
      refine ⟨this.1, ?_⟩
      rw [hB l' hl']; exact this.2

/-- The same for Matrix Market files. -/
theorem readMm_file_drf (hpad : 0 < μ.pad) {R C N : Nat} {body : List (List Byte)}
    (h : Spec.MmFile μ.bytes R C N body) {lw ow : Nat} {wk : WKind W}
    {entry : List Byte → Option (Nat × Nat × W)} {wp : Nat × Nat × W → Prop} (hf : FormatOk lw wk entry wp)
    (hok : Spec.BodyOk entry body) (hwp : ∀ en ∈ Spec.entriesOf entry body, wp en)
    (hlab : ∀ e ∈ Spec.entriesOf entry body, e.1 < 2 ^ lw ∧ e.2.1 < 2 ^ lw)
    (cfg : Cfg) {T : Nat} (hT : 0 < T)
    (hd : WTrivial wk ∨ ∀ en ∈ Spec.entriesOf entry body, storedC cfg en ≠ []) :
    (dReadMm μ lw ow cfg wk T (fileReader μ)).drf := by
  refine readMm_drf fun q hq => ?_
  obtain ⟨hh, hv, hn⟩ := readMmHeader_eq hpad h lw ow
  rw [hh] at hq
  cases hq
  have hlast : Spec.ints (body.getLast h.body_ne) = [] := hok.last _ (List.getLast?_eq_some_getLast h.body_ne)
  have hfm : body.dropLast.filterMap (entOf lw entry) = Spec.entriesOf entry body := by
    rw [filterMap_entOf]
    have : body.dropLast.filterMap (fun l => if Spec.ints l = [] then none else entry l) = Spec.entriesOf entry body := by
      unfold Spec.entriesOf
      conv => rhs; rw [← List.dropLast_concat_getLast h.body_ne]
      rw [List.filterMap_append]
      simp [hlast]
    rw [this, map_modL_id hlab]
  have st : ElState μ μ.bytes.length body.dropLast (body.getLast h.body_ne) :=
    ⟨hv, by unfold Readable; omega, fun l hl => hn l (List.dropLast_subset _ hl), hn _ (List.getLast_mem _),
      (firstIntL_nil_iff _ (hn _ (List.getLast_mem _))).mpr hlast⟩
  have hent : ∀ l ∈ body.dropLast, EntOk lw wk (entOf lw entry) l := by
    intro l hl
    have hlb := List.dropLast_subset _ hl
    refine ⟨hn l hlb, ?_⟩
    unfold entOf
    by_cases hi : Spec.ints l = []
    · rw [if_pos hi]; exact (firstIntL_nil_iff l (hn l hlb)).mpr hi
    · rw [if_neg hi]
      rcases hok.line l hlb with hc | hc
      · exact absurd hc hi
      · obtain ⟨en, hen⟩ := Option.isSome_iff_exists.mp hc
        rw [hen]
        refine hf l (hn l hlb) en hen (hwp en ?_)
        unfold Spec.entriesOf
        rw [List.mem_filterMap]
        exact ⟨l, hlb, by rw [if_neg hi, hen]⟩
  rw [← hfm] at hd
  exact readEl_first_drf cfg hT st hent hd

end Pigo
