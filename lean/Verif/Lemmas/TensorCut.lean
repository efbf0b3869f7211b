import Verif.Lemmas.TensorTail
import Verif.Lemmas.MatrixMarket

/-!
# Tensor files with a text after the last newline
-/

namespace Pigo

variable {W : Type} {μ : Mapping} {e : Nat}

/-- A file ended by a newline is the text of its lines. -/
theorem text_of_nl {F G : List Byte} (h : F = G ++ [nl]) : F = text (Spec.lines F).dropLast := by
  have h1 := text_lines F
  have h2 : Spec.lines F = Spec.lines G ++ [[]] := by
    rw [h]
    unfold Spec.lines
    rw [List.splitOn_append_cons_self]; rfl
  have h3 : ∀ (L : List (List Byte)) (hL : L ≠ []), L = Spec.lines G ++ [[]] → L.getLast hL = [] := by
    rintro L hL rfl
    exact List.getLast_concat
  rw [h3 _ _ h2, List.append_nil] at h1
  exact h1

theorem getLast_nl {F G : List Byte} (h : F = G ++ [nl]) : (Spec.lines F).getLast (Spec.lines_ne_nil F) = [] := by
  have h2 : Spec.lines F = Spec.lines G ++ [[]] := by
    rw [h]
    unfold Spec.lines
    rw [List.splitOn_append_cons_self]; rfl
  have h3 : ∀ (L : List (List Byte)) (hL : L ≠ []), L = Spec.lines G ++ [[]] → L.getLast hL = [] := by
    rintro L hL rfl
    exact List.getLast_concat
  exact h3 _ _ h2

/-- The lines of a file with a text behind its last newline. -/
theorem lines_cut {F G τ : List Byte} (h : F = G ++ [nl]) (hτ : nl ∉ τ) : Spec.lines (F ++ τ) = (Spec.lines F).dropLast ++ [τ] := by
  conv => lhs; rw [text_of_nl h]
  exact lines_text (fun l hl => lines_noNl F l (List.dropLast_subset _ hl)) hτ

theorem entries_cut {E : Type} (entry : List Byte → Option E) {F G τ : List Byte} (h : F = G ++ [nl]) (hτ : nl ∉ τ) :
    Spec.entries entry (F ++ τ) = Spec.entries entry F ++ (if Spec.ints τ = [] then none else entry τ).toList := by
  unfold Spec.entries
  have h1 : Spec.lines F = (Spec.lines F).dropLast ++ [[]] := by
    conv => lhs; rw [← List.dropLast_concat_getLast (Spec.lines_ne_nil F), getLast_nl h]
  rw [lines_cut h hτ, List.filterMap_append]
  conv => rhs; rw [h1, List.filterMap_append]
  have h2 : List.filterMap (fun l => if Spec.ints l = [] then none else entry l) [[]] = [] := by
    have : Spec.ints [] = [] := by decide
    simp [this]
  rw [h2, List.append_nil]
  congr 1

/-- Every execution of `Tensor::read_el_` on a well-formed file with a text behind the last newline, provided the loops treat this text as
`entOfT` says. -/
theorem readTensorEl_cut (hpad : 0 < μ.pad) {lw ow k : Nat} {wk : WKind W} {entry : Nat → List Byte → Option (List Nat × W)} {wp : List Nat × W → Prop}
    (hf : TFormat wk entry wp) (hk : 0 < k) {F G τ : List Byte} (hF : F = G ++ [nl]) (hτ : nl ∉ τ) (hμ : μ.bytes = F ++ τ)
    (hok : Spec.TensorOk wk.wgt entry k F) (hne : Spec.entries (entry k) F ≠ []) (hwp : ∀ en ∈ Spec.entries (entry k) (F ++ τ), wp en)
    (hlab : ∀ en ∈ Spec.entries (entry k) (F ++ τ), ∀ x ∈ en.1, x < 2 ^ lw) {T : Nat} (hT : 0 < T) (hkw : k + 1 < 2 ^ ow)
    (hkm : k * (Spec.entries (entry k) (F ++ τ)).length < 2 ^ ow)
    (hc : TailOk' (tensorCount μ lw wk k) (fun c _ => c + 1) (entOfT (entry k)) μ.bytes.length τ)
    (hs : TailOk' (tensorSet μ lw wk k) (fun st en => (st.1 + 1, st.2 ++ tActs lw wk.wgt k st.1 en)) (entOfT (entry k)) μ.bytes.length τ) :
    (readTensorEl μ lw ow wk T (fileReader μ)).All (fun t => HoldsT t wk.wgt (Spec.entries (entry k) (F ++ τ)) ∧ t.order = k) := by
  have hnl : NoNl (Spec.lines F).dropLast := fun l hl => lines_noNl F l (List.dropLast_subset _ hl)
  have hμ' : μ.bytes = text (Spec.lines F).dropLast ++ τ := by rw [hμ]; congr 1; exact text_of_nl hF
  have he : ((Spec.lines F).dropLast ++ [τ]).filterMap (entOfT (entry k)) = Spec.entries (entry k) (F ++ τ) := by
    unfold Spec.entries; rw [lines_cut hF hτ]; rfl
  have hlen : ∀ en ∈ Spec.entries (entry k) (F ++ τ), en.1.length = k := by
    intro en hen
    have hwe := hwp en hen
    unfold Spec.entries at hen
    obtain ⟨l, hl, hle⟩ := List.mem_filterMap.mp hen
    split at hle
    · cases hle
    · exact (hf.law lw hk (lines_noNl _ l hl) hle hwe).2
  have hfr : fileReader μ = rd μ.bytes.length (text (Spec.lines F).dropLast ++ τ) := by
    rw [← hμ']; simp [fileReader, rd]
  have v : View μ μ.bytes.length (text (Spec.lines F).dropLast ++ τ) := by rw [← hμ']; exact View.full μ
  have hr : Readable μ μ.bytes.length := by unfold Readable; omega
  have hTEnt : ∀ l ∈ (Spec.lines F).dropLast, TEntOk lw wk k (entOfT (entry k)) l := by
    intro l hl
    have hl' := List.dropLast_subset _ hl
    have hn := hnl l hl
    refine ⟨hn, ?_⟩
    unfold entOfT
    by_cases hi : Spec.ints l = []
    · rw [if_pos hi]; exact (firstIntL_nil_iff l hn).mpr hi
    · rw [if_neg hi]
      rcases hok.good.line l hl' with h | h
      · exact absurd h hi
      · obtain ⟨en, hen⟩ := Option.isSome_iff_exists.mp h
        rw [hen]
        refine hf.law lw hk hn hen (hwp en ?_)
        unfold Spec.entries
        rw [lines_cut hF hτ]
        exact List.mem_filterMap.mpr ⟨l, List.mem_append_left _ hl, by rw [if_neg hi, hen]⟩
  have ho : tensorOrder μ ow wk.wgt (rd μ.bytes.length (text (Spec.lines F).dropLast ++ τ)) = .ok k := by
    cases hfd : Spec.firstData F with
    | none =>
      exfalso
      have hbl := firstData_none hfd
      apply hne
      unfold Spec.entries
      rw [List.filterMap_eq_nil_iff]
      intro l hl
      rw [if_pos (hbl l hl)]
    | some l =>
      obtain ⟨A, B, hAB, hA, hl⟩ := firstData_split hfd (by rw [getLast_nl hF]; decide)
      obtain ⟨hp, hw⟩ := hok.first l hfd
      rw [hAB] at hnl v ⊢
      rw [tensorOrder_eq hr hnl v hA hl hp (by rw [hw]; split <;> omega), hw]
      congr 1; split <;> omega
  obtain ⟨gs, hgs, hplan⟩ := tensorPlan_tail hT v hr hnl hτ hTEnt hc hs ho
  rw [he] at hgs hplan
  rw [hfr]
  have hm : (Spec.entries (entry k) (F ++ τ)).length < 2 ^ ow := by
    have : 1 * (Spec.entries (entry k) (F ++ τ)).length ≤ k * (Spec.entries (entry k) (F ++ τ)).length := Nat.mul_le_mul_right _ hk
    omega
  refine (execT_of_plan hgs hplan hlen hm hkm).mono (fun t ht => ?_)
  subst ht
  refine ⟨⟨rfl, hlen, ?_, ?_⟩, rfl⟩
  · simp only
    rw [List.flatMap_def, List.flatMap_def]
    congr 1
    refine List.map_congr_left (fun en hen => ?_)
    conv => rhs; rw [← List.map_id en.1]
    exact List.map_congr_left (fun x hx => Nat.mod_eq_of_lt (hlab en hen x hx))
  · intro hg
    simp only [hg, if_true]

/-- A word of digits alone is not an entry with two or more words. -/
theorem lone_entry {wk : WKind W} {entry : Nat → List Byte → Option (List Nat × W)} {wp : List Nat × W → Prop} (hf : TFormat wk entry wp) {k : Nat}
    (h2 : 2 ≤ k + if wk.wgt then 1 else 0) {τ : List Byte} (hd : ∀ b ∈ τ, isDigit b = true) : entOfT (entry k) τ = none := by
  unfold entOfT
  split
  · rfl
  · rename_i hi
    have hw : Word τ := ⟨fun h => hi (by rw [h]; decide), fun b hb => digit_word (hd b hb)⟩
    have hws : Spec.words τ = [τ] := by
      unfold Spec.words
      rw [show Spec.stripComment τ = τ from ?_, tokens_word hw]
      have := strip_eq (c := τ) (com := []) (fun b hb => by rw [← isCom_spec]; exact (hw.chars b hb).2.1) (by intro b r h; cases h)
      rwa [List.append_nil] at this
    have hW : ∀ {V : Type} {parse : List Byte → Option V}, 1 ≤ k → Spec.tensorEntryW parse k τ = none := by
      intro V parse hk
      unfold Spec.tensorEntryW
      rw [hws, show ([τ] : List (List Byte))[k]? = none from by rw [List.getElem?_eq_none_iff]; simpa using hk]
      cases Spec.coords k [τ] <;> rfl
    cases hf with
    | none =>
      unfold Spec.tensorEntry0 Spec.coords
      rw [hws, if_neg (by simp only [wNone, Bool.false_eq_true, if_false] at h2; simp; omega)]; rfl
    | uint ww => exact hW (by simp only [wUint, if_true] at h2; omega)
    | sint ww => exact hW (by simp only [wSint, if_true] at h2; omega)
    | float ops => exact hW (by simp only [wFp, if_true] at h2; omega)

end Pigo
