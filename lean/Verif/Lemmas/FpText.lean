import Verif.Lemmas.FpDouble
import Verif.Lemmas.Words
import Verif.Props.Stb

/-!
# Number literals: parsing what was printed
-/

namespace Pigo

theorem takeWhile_digits (a r : List Byte) (ha : a.all Spec.isDigit = true) (hr : ∀ b s, r = b :: s → Spec.isDigit b = false) :
    (a ++ r).takeWhile Spec.isDigit = a ∧ (a ++ r).dropWhile Spec.isDigit = r :=
  takeWhile_word Spec.isDigit a r (fun b hb => List.all_eq_true.mp ha b hb) hr

theorem takeSign_append (s : Spec.Sign) (r : List Byte) (hr : ∀ b t, r = b :: t → b ≠ 45 ∧ b ≠ 43) :
    Spec.takeSign (s.text ++ r) = (s, r) := by
  match s with
  | none =>
    show Spec.takeSign r = _
    cases r with
    | nil => rfl
    | cons c t =>
      obtain ⟨h1, h2⟩ := hr c t rfl
      have e1 : c.toNat ≠ '-'.toNat := fun h => h1 (UInt8.toNat_inj.mp h)
      have e2 : c.toNat ≠ '+'.toNat := fun h => h2 (UInt8.toNat_inj.mp h)
      simp only [Spec.takeSign, e1, e2, if_false]
  | some true => rfl
  | some false => rfl

/-- The text of a literal is parsed as that literal. -/
theorem parseLit_text {l : Spec.Lit} (hl : l.Ok) : Spec.parseLit l.text = some l := by
  obtain ⟨sg, int, frac, exp⟩ := l
  obtain ⟨h1, h2, h3, h4⟩ := hl
  simp only at h1 h2 h3 h4
  have hx : ∀ b s, Spec.Lit.expText exp = b :: s → Spec.isDigit b = false ∧ b ≠ 46 := by
    intro b s h
    rcases exp with _ | ⟨up, s', ds⟩
    · cases h
    · cases up <;> (injection h with h; subst h; decide)
  have hfx : ∀ b s, Spec.Lit.fracText frac ++ Spec.Lit.expText exp = b :: s → Spec.isDigit b = false := by
    intro b s h
    cases frac with
    | none => exact (hx b s h).1
    | some f => injection h with h; subst h; decide
  have hsg : ∀ b t, int ++ (Spec.Lit.fracText frac ++ Spec.Lit.expText exp) = b :: t → b ≠ 45 ∧ b ≠ 43 := by
    intro b t h
    cases int with
    | cons c t' =>
      injection h with h; subst h
      have hc := List.all_eq_true.mp h1 c (List.mem_cons_self ..)
      constructor <;> (rintro rfl; revert hc; decide)
    | nil =>
      rcases h3 with h3 | ⟨f, rfl, _⟩
      · exact absurd rfl h3
      · injection h with h; subst h; decide
  have hfrac : Spec.takeFrac (Spec.Lit.fracText frac ++ Spec.Lit.expText exp) = (frac, Spec.Lit.expText exp) := by
    cases frac with
    | none =>
      show Spec.takeFrac (Spec.Lit.expText exp) = _
      generalize Spec.Lit.expText exp = xt at *
      cases xt with
      | nil => rfl
      | cons c t =>
        have e1 : c.toNat ≠ '.'.toNat := fun h => (hx c t rfl).2 (UInt8.toNat_inj.mp h)
        simp only [Spec.takeFrac, e1, if_false]
    | some f =>
      show Spec.takeFrac (46 :: (f ++ Spec.Lit.expText exp)) = _
      obtain ⟨t1, t2⟩ := takeWhile_digits f (Spec.Lit.expText exp) (h2 f rfl) (fun b s h => (hx b s h).1)
      show (some ((f ++ Spec.Lit.expText exp).takeWhile Spec.isDigit), (f ++ Spec.Lit.expText exp).dropWhile Spec.isDigit) = _
      rw [t1, t2]
  obtain ⟨t1, t2⟩ := takeWhile_digits int (Spec.Lit.fracText frac ++ Spec.Lit.expText exp) h1 hfx
  unfold Spec.parseLit Spec.Lit.text
  simp only
  rw [takeSign_append sg _ hsg]
  simp only
  rw [t1, t2, hfrac]
  simp only
  rw [if_neg]
  · rcases exp with _ | ⟨up, s', ds⟩
    · rfl
    · obtain ⟨x1, x2⟩ := h4 up s' ds rfl
      have hs : Spec.takeSign (s'.text ++ ds) = (s', ds) := by
        apply takeSign_append
        rintro b t rfl
        have hc := List.all_eq_true.mp x1 b (List.mem_cons_self ..)
        constructor <;> (rintro rfl; revert hc; decide)
      have ht : Spec.Lit.expText (some (up, s', ds)) = (if up then 69 else 101) :: (s'.text ++ ds) := by cases up <;> rfl
      rw [ht]
      simp only
      rw [hs]
      cases up
      · rw [if_pos ⟨.inl (by decide), x2, x1⟩]; rfl
      · rw [if_pos ⟨.inr (by decide), x2, x1⟩]; rfl
  · rintro ⟨ha, hb⟩
    rcases h3 with h3 | ⟨f, hf, hne⟩
    · exact h3 ha
    · rcases hb with hb | hb
      · rw [hf] at hb; cases hb
      · rw [hf] at hb; injection hb with hb; exact hne hb

theorem decimal_lt (ds : List Byte) (h : ∀ b ∈ ds, Spec.isDigit b = true) : Spec.decimal ds < 10 ^ ds.length := by
  induction ds using List.reverseRec with
  | nil => decide
  | append_singleton ds c ih =>
    have ih := ih (fun b hb => h b (List.mem_append_left _ hb))
    have hc := h c (by simp)
    rw [Stb.decimal_append]
    have e : Spec.decimal [c] < 10 := by
      have : Spec.decimal [c] = c.toNat - '0'.toNat := by simp [Spec.decimal]
      rw [this]
      unfold Spec.isDigit at hc
      have hc := of_decide_eq_true hc
      have e9 : '9'.toNat = 57 := rfl
      have e0 : '0'.toNat = 48 := rfl
      omega
    simp only [List.length_append, List.length_singleton, pow_succ, pow_zero, one_mul]
    omega

/-- The literal printed for `±N / 10^6`. -/
theorem signed6_lit (neg : Bool) (N : Nat) : ∃ ip fp, Spec.signed6 neg N = (⟨if neg then some true else none, ip, some fp, none⟩ : Spec.Lit).text ∧
    (⟨if neg then some true else none, ip, some fp, none⟩ : Spec.Lit).Ok ∧ fp.length = 6 ∧ Spec.decimal ip = N / 10 ^ 6 ∧ Spec.decimal fp = N % 10 ^ 6 := by
  obtain ⟨ip, fp, h1, h2, h3, h4, h5, _⟩ := Stb.C67_shape N
  refine ⟨ip, fp, ?_, ⟨?_, ?_, .inl h2, by simp⟩, h3, ?_⟩
  · rw [Spec.signed6, h1]
    cases neg <;> simp [Spec.Lit.text, Spec.Sign.text, Spec.Lit.fracText, Spec.Lit.expText, str]
  · exact List.all_eq_true.mpr (fun b hb => h4 b (List.mem_append_left _ hb))
  · intro f hf; injection hf with hf; subst hf
    exact List.all_eq_true.mpr (fun b hb => h4 b (List.mem_append_right _ hb))
  · have hl := decimal_lt fp (fun b hb => h4 b (List.mem_append_right _ hb))
    rw [Stb.decimal_append, h3] at h5
    rw [h3] at hl
    constructor <;> omega

theorem signed6_word (neg : Bool) (N : Nat) : Word (Spec.signed6 neg N) := by
  obtain ⟨ip, fp, h1, h2, h3, h4, h5, _⟩ := Stb.C67_shape N
  have hd : ∀ b ∈ ip ++ fp, isDigit b = true := fun b hb => by rw [← isDigit_spec]; exact h4 b hb
  refine ⟨?_, fun b hb => ?_⟩
  · rw [Spec.signed6, h1]
    cases ip with
    | nil => exact absurd rfl h2
    | cons c t => simp
  · rw [Spec.signed6, h1] at hb
    rcases List.mem_append.mp hb with hb | hb
    · cases neg
      · simp at hb
      · rw [if_pos rfl, show str "-" = [45] by decide, List.mem_singleton] at hb
        subst hb; decide
    · rcases List.mem_append.mp hb with hb | hb
      · rcases List.mem_append.mp hb with hb | hb
        · exact digit_word (hd b (List.mem_append_left _ hb))
        · rw [show str "." = [46] by decide, List.mem_singleton] at hb
          subst hb; decide
      · exact digit_word (hd b (List.mem_append_right _ hb))

end Pigo
