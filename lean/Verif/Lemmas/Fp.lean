import Verif.Model.Fp
import Verif.Spec.Fp
import Verif.Lemmas.EdgeSpec

/-!
# `read_fp` on a literal
-/

namespace Pigo

variable {V : Type} {μ : Mapping} {e : Nat} (ops : FpOps V)

/-- What `read_fp` computes from a run of digits. -/
def fpDigits (ds : List Byte) : V := ds.foldl (fun a b => ops.digit a (digitVal b)) ops.zero

/-- Effect of the fractional part. -/
def evalFrac (a : V) : Option (List Byte) → V
  | none => a
  | some f => ops.addFrac a (fpDigits ops f) f.length

/-- Effect of the exponent. -/
def evalExp (a : V) : Option (Bool × Spec.Sign × List Byte) → V
  | none => a
  | some (_, s, ds) => ops.scale a (if s.neg then ops.neg (fpDigits ops ds) else fpDigits ops ds)

/-- What `read_fp` computes for a literal, in the arithmetic `ops`. -/
def evalLit (l : Spec.Lit) : V :=
  let a := evalExp ops (evalFrac ops (fpDigits ops l.int) l.frac) l.exp
  if l.sign.neg then ops.neg a else a

theorem fpDigitsN_eq : ∀ (n : Nat) (res : V) (k : Nat) (s : List Byte), View μ e s → s.length ≤ n →
    fpDigitsN μ ops n res k (rd e s) =
      .ok ((s.takeWhile isDigit).foldl (fun a b => ops.digit a (digitVal b)) res,
        k + (s.takeWhile isDigit).length, rd e (s.dropWhile isDigit))
  | 0, res, k, s, _, h => by
    have : s = [] := List.length_eq_zero_iff.mp (by omega)
    subst this; rfl
  | n+1, res, k, [], v, _ => by simp [fpDigitsN, rd]
  | n+1, res, k, c :: s, v, h => by
    rw [fpDigitsN, if_pos v.lt, v.get_d, ok_bind, v.adv, List.takeWhile_cons, List.dropWhile_cons]
    by_cases hc : isDigit c
    · simp only [hc, if_true]
      rw [fpDigitsN_eq n _ _ s v.tail (by simpa using h)]
      simp only [List.foldl_cons, List.length_cons, Nat.add_assoc, Nat.add_comm 1]
    · simp [hc]

/-- The byte at the cursor is loadable and satisfies `P`. -/
def At (μ : Mapping) (e : Nat) (s : List Byte) (P : Byte → Prop) : Prop :=
  ∃ b, μ.get (rd e s).d = .ok b ∧ P b

theorem at_cons {c : Byte} {s : List Byte} {P : Byte → Prop} (v : View μ e (c :: s)) (h : P c) :
    At μ e (c :: s) P := ⟨c, v.get_d, h⟩

theorem isFp_digit {b : Byte} (h : isDigit b = true) : isFp b = true := by simp [isFp, h]

/-- digits followed by a stopper -/
theorem digits_at {d r : List Byte} (hd : ∀ b ∈ d, isDigit b = true)
    (hr : ∀ b s, r = b :: s → isDigit b = false) (v : View μ e (d ++ r)) (res : V) :
    fpDigitsN μ ops ((rd e (d ++ r)).e - (rd e (d ++ r)).d) res 0 (rd e (d ++ r)) =
      .ok (d.foldl (fun a b => ops.digit a (digitVal b)) res, d.length, rd e r) := by
  rw [v.sub, fpDigitsN_eq ops _ _ _ _ v (Nat.le_refl _)]
  obtain ⟨h1, h2⟩ := takeWhile_word isDigit d r hd hr
  rw [h1, h2, Nat.zero_add]

theorem sign_at (s : Spec.Sign) (r : List Byte) (v : View μ e (s.text ++ r))
    (hr : s = none → At μ e r (fun b => b ≠ 45 ∧ b ≠ 43)) :
    fpSign μ (rd e (s.text ++ r)) = .ok (s.neg, rd e r) := by
  match s with
  | none =>
    obtain ⟨b, hb, h1, h2⟩ := hr rfl
    show fpSign μ (rd e r) = _
    rw [fpSign, hb, ok_bind, if_neg (by simpa using h1), if_neg (by simpa using h2)]; rfl
  | some true =>
    have v : View μ e (45 :: r) := v
    show fpSign μ (rd e (45 :: r)) = _
    rw [fpSign, v.get_d, ok_bind, if_pos (by decide), v.adv]; rfl
  | some false =>
    have v : View μ e (43 :: r) := v
    show fpSign μ (rd e (43 :: r)) = _
    rw [fpSign, v.get_d, ok_bind, if_neg (by decide), if_pos (by decide), v.adv]; rfl

theorem digit_ne {b : Byte} (h : isDigit b = true) : b ≠ 45 ∧ b ≠ 43 ∧ b ≠ 46 ∧ b ≠ 101 ∧ b ≠ 69 := by
  refine ⟨?_, ?_, ?_, ?_, ?_⟩ <;> (rintro rfl; revert h; decide)

/-- After a literal: the buffer ends or a byte follows that cannot continue a literal. -/
def Stops (μ : Mapping) (e : Nat) (r : List Byte) : Prop :=
  (∀ b s, r = b :: s → isFp b = false) ∧ At μ e r (fun b => isFp b = false)

theorem isFp_false {b : Byte} (h : isFp b = false) :
    isDigit b = false ∧ b ≠ 45 ∧ b ≠ 43 ∧ b ≠ 46 ∧ b ≠ 101 ∧ b ≠ 69 := by
  simp only [isFp, Bool.or_eq_false_iff, beq_eq_false_iff_ne] at h
  obtain ⟨⟨⟨⟨⟨h1, h2⟩, h3⟩, h4⟩, h5⟩, h6⟩ := h
  exact ⟨h1, h4, h5, h6, h2, h3⟩

theorem scan_fp_none {s : List Byte} (v : View μ e s) (h : ∀ b t, s = b :: t → isFp b = true) :
    scan μ (fun b => !isFp b) (rd e s) = .ok (rd e s) := by
  rw [scan_eq _ v]
  cases s with
  | nil => rfl
  | cons b t => simp [h b t rfl]

/-- Signed digits (an exponent) followed by a stopper. -/
theorem readFpN_exp (n : Nat) (s : Spec.Sign) (ds r : List Byte) (hds : ds.all Spec.isDigit = true) (hne : ds ≠ [])
    (v : View μ e (s.text ++ (ds ++ r))) (hr : Stops μ e r) :
    readFpN μ ops (n+1) (rd e (s.text ++ (ds ++ r))) =
      .ok (if s.neg then ops.neg (fpDigits ops ds) else fpDigits ops ds, rd e r) := by
  have hd : ∀ b ∈ ds, isDigit b = true := by
    intro b hb; rw [← isDigit_spec]; exact List.all_eq_true.mp hds b hb
  obtain ⟨c, ds', rfl⟩ : ∃ c ds', ds = c :: ds' := by
    cases ds with
    | nil => exact absurd rfl hne
    | cons c ds' => exact ⟨c, ds', rfl⟩
  have hc := hd c (List.mem_cons_self ..)
  have v1 : View μ e (c :: ds' ++ r) := v.append
  have hscan : scan μ (fun b => !isFp b) (rd e (s.text ++ (c :: ds' ++ r))) = .ok (rd e (s.text ++ (c :: ds' ++ r))) := by
    apply scan_fp_none v
    intro b t h
    match s with
    | none => injection h with h; subst h; exact isFp_digit hc
    | some true => injection h with h; subst h; decide
    | some false => injection h with h; subst h; decide
  obtain ⟨b, hb, hbf⟩ := hr.2
  have hbf := isFp_false hbf
  rw [readFpN, hscan, ok_bind, sign_at s _ v (fun _ => at_cons v1 ⟨(digit_ne hc).1, (digit_ne hc).2.1⟩)]
  simp only [ok_bind]
  rw [digits_at ops hd (fun b t h => (isFp_false (hr.1 b t h)).1) v1]
  simp only [ok_bind]
  rw [fpFrac, hb, ok_bind, if_neg (by simpa using hbf.2.2.2.1)]
  simp only [ok_bind]
  rw [hb, ok_bind, if_neg (by simp [hbf.2.2.2.2.1, hbf.2.2.2.2.2])]
  rfl

/-- `read_fp` on a literal. -/
theorem readFpN_lit (n : Nat) (l : Spec.Lit) (hl : l.Ok) (r : List Byte) (v : View μ e (l.text ++ r)) (hr : Stops μ e r) :
    readFpN μ ops (n + 2) (rd e (l.text ++ r)) = .ok (evalLit ops l, rd e r) := by
  obtain ⟨sg, int, frac, exp⟩ := l
  obtain ⟨h1, h2, h3, h4⟩ := hl
  simp only at h1 h2 h3 h4
  have hi : ∀ b ∈ int, isDigit b = true := by
    intro b hb; rw [← isDigit_spec]; exact List.all_eq_true.mp h1 b hb
  -- the pieces of the text
  generalize hft : Spec.Lit.fracText frac = ft at *
  generalize hxt : Spec.Lit.expText exp = xt at *
  have htext : (Spec.Lit.text ⟨sg, int, frac, exp⟩) ++ r = sg.text ++ (int ++ (ft ++ (xt ++ r))) := by
    simp only [Spec.Lit.text, List.append_assoc, hft, hxt]
  rw [htext] at v ⊢
  have vi : View μ e (int ++ (ft ++ (xt ++ r))) := v.append
  have vf : View μ e (ft ++ (xt ++ r)) := vi.append
  have vx : View μ e (xt ++ r) := vf.append
  have vr : View μ e r := vx.append
  obtain ⟨b0, hb0, hb0f⟩ := hr.2
  have hb0f := isFp_false hb0f
  -- what can follow the digits
  have afterX : ∀ b s, xt ++ r = b :: s → isDigit b = false := by
    intro b s h
    cases hx : exp with
    | none => rw [← hxt, hx] at h; exact (isFp_false (hr.1 b s h)).1
    | some q =>
      obtain ⟨up, s', ds⟩ := q
      rw [← hxt, hx] at h
      cases up <;> (injection h with h; subst h; decide)
  have afterF : ∀ b s, ft ++ (xt ++ r) = b :: s → isDigit b = false := by
    intro b s h
    cases hf : frac with
    | none => rw [← hft, hf] at h; exact afterX b s h
    | some f => rw [← hft, hf] at h; injection h with h; subst h; decide
  -- the byte at the exponent
  have atX : At μ e (xt ++ r) (fun b => b ≠ 45 ∧ b ≠ 43 ∧ b ≠ 46) := by
    cases hx : exp with
    | none =>
      have : xt = [] := by rw [← hxt, hx]; rfl
      rw [this]; exact ⟨b0, hb0, hb0f.2.1, hb0f.2.2.1, hb0f.2.2.2.1⟩
    | some q =>
      obtain ⟨up, s', ds⟩ := q
      cases up
      · have : xt = 101 :: (s'.text ++ ds) := by rw [← hxt, hx]; rfl
        rw [this] at vx ⊢
        exact at_cons vx (by decide)
      · have : xt = 69 :: (s'.text ++ ds) := by rw [← hxt, hx]; rfl
        rw [this] at vx ⊢
        exact at_cons vx (by decide)
  have atF : At μ e (int ++ (ft ++ (xt ++ r))) (fun b => b ≠ 45 ∧ b ≠ 43) := by
    cases int with
    | cons c t => exact at_cons vi ⟨(digit_ne (hi c (List.mem_cons_self ..))).1, (digit_ne (hi c (List.mem_cons_self ..))).2.1⟩
    | nil =>
      rcases h3 with h3 | ⟨f, hf, _⟩
      · exact absurd rfl h3
      · have : ft = 46 :: f := by rw [← hft, hf]; rfl
        rw [this] at vf ⊢
        exact at_cons vf (by decide)
  have hscan : scan μ (fun b => !isFp b) (rd e (sg.text ++ (int ++ (ft ++ (xt ++ r))))) =
      .ok (rd e (sg.text ++ (int ++ (ft ++ (xt ++ r))))) := by
    apply scan_fp_none v
    intro b t h
    match sg with
    | some true => injection h with h; subst h; decide
    | some false => injection h with h; subst h; decide
    | none =>
      replace h : int ++ (ft ++ (xt ++ r)) = b :: t := h
      cases int with
      | cons c t => injection h with h; subst h; exact isFp_digit (hi _ (List.mem_cons_self ..))
      | nil =>
        rcases h3 with h3 | ⟨f, hf, _⟩
        · exact absurd rfl h3
        · have : ft = 46 :: f := by rw [← hft, hf]; rfl
          rw [this] at h
          injection h with h; subst h; decide
  have hfrac : ∀ a, fpFrac μ ops a (rd e (ft ++ (xt ++ r))) =
      .ok (evalFrac ops a frac, rd e (xt ++ r)) := by
    intro a
    cases hf : frac with
    | none =>
      have : ft = [] := by rw [← hft, hf]; rfl
      rw [this, List.nil_append]
      obtain ⟨b, hb, h⟩ := atX
      rw [fpFrac, hb, ok_bind, if_neg (by simpa using h.2.2)]; rfl
    | some f =>
      have : ft = 46 :: f := by rw [← hft, hf]; rfl
      rw [this] at vf ⊢
      replace vf : View μ e (46 :: (f ++ (xt ++ r))) := vf
      have hfd : ∀ b ∈ f, isDigit b = true := by
        intro b hb; rw [← isDigit_spec]; exact List.all_eq_true.mp (h2 f hf) b hb
      show fpFrac μ ops a (rd e (46 :: (f ++ (xt ++ r)))) = _
      rw [fpFrac, vf.get_d, ok_bind, if_pos (by decide), vf.adv]
      simp only
      rw [digits_at ops hfd afterX vf.tail]
      rfl
  rw [readFpN, hscan, ok_bind, sign_at sg _ v (fun _ => atF)]
  simp only [ok_bind]
  rw [digits_at ops hi afterF vi]
  simp only [ok_bind]
  rw [hfrac]
  simp only [ok_bind]
  show _ = Except.ok ((if sg.neg then _ else _), _)
  simp only
  cases hx : exp with
  | none =>
    have : xt = [] := by rw [← hxt, hx]; rfl
    rw [this, List.nil_append, hb0, ok_bind, if_neg (by simp [hb0f.2.2.2.2.1, hb0f.2.2.2.2.2])]
    rfl
  | some q =>
    obtain ⟨up, s', ds⟩ := q
    obtain ⟨x1, x2⟩ := h4 up s' ds hx
    obtain ⟨c, hc, hxt'⟩ : ∃ c : Byte, (c == 101 || c == 69) = true ∧ xt ++ r = c :: (s'.text ++ (ds ++ r)) := by
      cases up
      · exact ⟨101, by decide, by rw [← hxt, hx, ← List.append_assoc, ← List.cons_append]; rfl⟩
      · exact ⟨69, by decide, by rw [← hxt, hx, ← List.append_assoc, ← List.cons_append]; rfl⟩
    rw [hxt'] at vx ⊢
    rw [vx.get_d, ok_bind, if_pos hc, vx.adv,
      readFpN_exp ops _ s' ds r x1 x2 vx.tail hr]
    rfl

theorem readFp_lit (l : Spec.Lit) (hl : l.Ok) (r : List Byte) (v : View μ e (l.text ++ r)) (hr : Stops μ e r) :
    readFp μ ops (rd e (l.text ++ r)) = .ok (evalLit ops l, rd e r) := readFpN_lit ops _ l hl r v hr

/-- Bytes that belong to no number are skipped first. -/
theorem readFpN_gap (n : Nat) (g s : List Byte) (hg : ∀ b ∈ g, isFp b = false) (hs : ∃ c t, s = c :: t ∧ isFp c = true)
    (v : View μ e (g ++ s)) : readFpN μ ops (n + 1) (rd e (g ++ s)) = readFpN μ ops (n + 1) (rd e s) := by
  obtain ⟨c, t, hs, hc⟩ := hs
  rw [readFpN, readFpN, scan_eq _ v, scan_eq _ v.append]
  congr 1
  have : (g ++ s).dropWhile (fun b => !isFp b) = s.dropWhile (fun b => !isFp b) := by
    clear v
    induction g with
    | nil => rfl
    | cons a g ih =>
      rw [List.cons_append, List.dropWhile_cons, if_pos (by simp [hg a (List.mem_cons_self ..)])]
      exact ih (fun b hb => hg b (List.mem_cons_of_mem _ hb))
  rw [this]

end Pigo
