import Verif.Lemmas.Fp
import Verif.Spec.FpValue
import Verif.Lemmas.Formats
import Mathlib.Tactic.NormNum
import Verif.Props.Reader
import Verif.Props.EdgeList
import Mathlib.Tactic.Ring

/-!
# Reading decimal numbers (C66)

The arithmetic of `read_fp` is a parameter of the model; these theorems are about exact arithmetic: the value the
code would compute if no operation rounded.
-/

namespace Pigo

/-- The operations of `read_fp` do not round. -/
structure FpOps.Exact (ops : FpOps ℚ) : Prop where
  zero : ops.zero = 0
  digit : ∀ r d, ops.digit r d = r * 10 + d
  addFrac : ∀ r f k, ops.addFrac r f k = r + f / 10 ^ k
  scale : ∀ r (x : ℤ), ops.scale r x = r * (10 : ℚ) ^ x
  neg : ∀ r, ops.neg r = r * (-1)

/-- Exact arithmetic. -/
def exactOps : FpOps ℚ where
  zero := 0
  digit r d := r * 10 + d
  addFrac r f k := r + f / 10 ^ k
  scale r x := r * (10 : ℚ) ^ x.num
  neg r := r * (-1)

theorem exactOps_exact : exactOps.Exact :=
  ⟨rfl, fun _ _ => rfl, fun _ _ _ => rfl, fun r x => by simp [exactOps], fun _ => rfl⟩

theorem isNumChar_spec (b : Byte) : Spec.isNumChar b = isFp b := by
  simp only [Spec.isNumChar, isFp, isDigit_spec, Bool.or_assoc]
  congr 1
  rw [Bool.eq_iff_iff]
  simp only [decide_eq_true_eq, Bool.or_eq_true, beq_iff_eq, ← UInt8.toNat_inj]
  rfl

theorem fpDigits_exact {ops : FpOps ℚ} (h : ops.Exact) (ds : List Byte) :
    fpDigits ops ds = (Spec.decimal ds : ℚ) := by
  rw [decimal_eq]
  unfold fpDigits decVal
  rw [h.zero, show (0 : ℚ) = ((0 : Nat) : ℚ) from rfl]
  generalize (0 : Nat) = a
  induction ds generalizing a with
  | nil => rfl
  | cons c ds ih =>
    rw [List.foldl_cons, List.foldl_cons, h.digit, ← ih]
    congr 1
    push_cast; rfl

theorem evalLit_exact {ops : FpOps ℚ} (h : ops.Exact) (l : Spec.Lit) : evalLit ops l = l.value := by
  obtain ⟨sg, int, frac, exp⟩ := l
  have hf : evalFrac ops (fpDigits ops int) frac = (Spec.decimal int : ℚ) + Spec.fracValue frac := by
    cases frac with
    | none => simp [evalFrac, Spec.fracValue, fpDigits_exact h]
    | some f => simp only [evalFrac, Spec.fracValue, h.addFrac, fpDigits_exact h]
  have hx : ∀ a, evalExp ops a exp = a * (10 : ℚ) ^ Spec.expValue exp := by
    intro a
    rcases exp with _ | ⟨u, s, ds⟩
    · simp [evalExp, Spec.expValue]
    · simp only [evalExp, Spec.expValue, fpDigits_exact h, h.neg]
      rw [← h.scale]
      congr 1
      split <;> push_cast <;> ring
  simp only [evalLit, Spec.Lit.value, Spec.Sign.factor, hf, hx, h.neg]
  split <;> ring

variable {μ : Mapping}

/-- `read_fp` in any arithmetic. -/
theorem readFp_at {V : Type} {ops : FpOps V} {r : Reader} (hr : r.Ok μ)
    (gap : List Byte) (hgap : ∀ b ∈ gap, Spec.isNumChar b = false) (l : Spec.Lit) (hl : l.Ok) (rest : List Byte)
    (htext : Spec.slice μ.bytes r.d r.e = gap ++ (l.text ++ rest)) (next : Byte)
    (hnext : (μ.bytes ++ List.replicate μ.pad 0)[r.d + gap.length + l.text.length]? = some next)
    (hstop : Spec.isNumChar next = false) :
    readFp μ ops r = .ok (evalLit ops l, ⟨r.d + gap.length + l.text.length, r.e⟩) := by
  obtain ⟨v, hrd⟩ := reader_view hr
  have hlen : r.e - r.d = gap.length + (l.text.length + rest.length) := by
    rw [← rdr_slice_length hr.len, htext]; simp
  rw [htext] at v hrd
  have hle := hr.le
  have hle2 := hr.len
  have hget : μ.get (r.d + gap.length + l.text.length) = .ok next := by
    unfold Mapping.get
    rw [List.getElem?_append] at hnext
    split at hnext
    · rw [hnext]
    · rename_i h
      rw [List.getElem?_eq_none (by omega)]
      have := List.getElem?_eq_some_iff.mp hnext
      obtain ⟨h1, h2⟩ := this
      rw [List.getElem_replicate] at h2
      rw [List.length_replicate] at h1
      simp only
      rw [if_pos (by omega), h2]
  have hpos : (rd r.e rest).d = r.d + gap.length + l.text.length := by
    show r.e - rest.length = _; omega
  have vr : View μ r.e rest := v.append.append
  have hfp : isFp next = false := by rw [← isNumChar_spec]; exact hstop
  have hst : Stops μ r.e rest := by
    refine ⟨?_, next, by rw [hpos]; exact hget, hfp⟩
    rintro b s rfl
    have := vr.get_d
    rw [hpos, hget] at this
    injection this with this; subst this; exact hfp
  unfold readFp
  conv => lhs; rw [hrd]
  obtain ⟨n, hn⟩ : ∃ n, (rd r.e (gap ++ (l.text ++ rest))).e - (rd r.e (gap ++ (l.text ++ rest))).d + 2 = n + 2 := ⟨_, rfl⟩
  rw [hn, readFpN_gap ops (n+1) gap _ (fun b hb => by rw [← isNumChar_spec]; exact hgap b hb) (lit_head l hl rest) v,
    readFpN_lit ops n l hl rest v.append hst]
  congr 2
  rw [← hpos]; rfl

/-- **C66.** `read_fp` on text that holds (after bytes which belong to no number) a decimal literal, followed by a
byte that belongs to no number — inside the reader, after it, or the zero byte behind the file — computes exactly the
number the literal denotes, provided its arithmetic is exact, and leaves the cursor right behind the literal. -/
theorem C66_read_fp_exact {ops : FpOps ℚ} (hops : ops.Exact) {r : Reader} (hr : r.Ok μ)
    (gap : List Byte) (hgap : ∀ b ∈ gap, Spec.isNumChar b = false) (l : Spec.Lit) (hl : l.Ok) (rest : List Byte)
    (htext : Spec.slice μ.bytes r.d r.e = gap ++ (l.text ++ rest)) (next : Byte)
    (hnext : (μ.bytes ++ List.replicate μ.pad 0)[r.d + gap.length + l.text.length]? = some next)
    (hstop : Spec.isNumChar next = false) :
    readFp μ ops r = .ok (l.value, ⟨r.d + gap.length + l.text.length, r.e⟩) := by
  rw [readFp_at hr gap hgap l hl rest htext next hnext hstop, evalLit_exact hops]

/-- The literal `-12.5e+2`, between a blank and a newline of a file. -/
def demoLit : Spec.Lit := ⟨some true, str "12", some (str "5"), some (false, some false, str "2")⟩
def demoFp : Mapping := ⟨str "7 -12.5e+2\n", 4085⟩

theorem demoLit_value : demoLit.value = -1250 := by
  have h1 : Spec.decimal (str "12") = 12 := by decide
  have h2 : Spec.decimal (str "5") = 5 := by decide
  have h3 : Spec.decimal (str "2") = 2 := by decide
  have h4 : (str "5").length = 1 := by decide
  norm_num [demoLit, Spec.Lit.value, Spec.Sign.factor, Spec.Sign.neg, Spec.fracValue, Spec.expValue, h1, h2, h3, h4]

example : demoLit.text = str "-12.5e+2" := by decide

example : readFp demoFp exactOps ⟨1, 11⟩ = .ok (-1250, ⟨10, 11⟩) := by
  have := C66_read_fp_exact (μ := demoFp) exactOps_exact (r := ⟨1, 11⟩) ⟨by decide, by decide⟩ (str " ") (by decide)
    demoLit ⟨by decide, by intro f hf; injection hf with hf; subst hf; decide, .inl (by decide),
      by intro u s ds h; injection h with h; injection h with _ h; injection h with _ h; subst h; decide⟩
    (str "\n") (by decide) 10 (by decide) (by decide)
  rw [this, demoLit_value]
  rfl

/-- **C66, whole files.** Loading an edge list with floating point weights: the weights kept are exactly the numbers
the file's literals denote (in exact arithmetic), next to their edges and in file order. -/
theorem C66_edge_list_weights {ops : FpOps ℚ} (hops : ops.Exact) (μ : Mapping) (hpad : 0 < μ.pad) (lw ow T : Nat)
    (hT : 0 < T) (hok : Spec.FileOk (Spec.entryF Spec.Lit.value) μ.bytes)
    (hlab : ∀ e ∈ Spec.entries (Spec.entryF Spec.Lit.value) μ.bytes, e.1 < 2 ^ lw ∧ e.2.1 < 2 ^ lw)
    (cfg : Cfg) (hsl : cfg.sl = false) (hcfg : cfg.sym = true ∨ cfg.ut = false)
    (hm : (storedAll cfg (Spec.entries (Spec.entryF Spec.Lit.value) μ.bytes)).length < 2 ^ ow) (out : M (Coo ℚ))
    (hrun : LoadEdgeList μ lw ow cfg (wFp ops) T out) :
    ∃ c, out = .ok c ∧ Holds c true (storedAll cfg (Spec.entries (Spec.entryF Spec.Lit.value) μ.bytes)) := by
  have : (Spec.Lit.value : Spec.Lit → ℚ) = evalLit ops := funext fun l => (evalLit_exact hops l).symm
  rw [this] at hok hlab hm ⊢
  exact C16_weights_float μ hpad lw ow T hT ops hok hlab cfg hsl hcfg hm out hrun

/-- A file with weights in several notations. -/
def exFloats : Mapping := ⟨str "# w\n1 2 0.5\n3 3 -2e3 %\n0 4 .25\n", 100⟩

example : Spec.FileOk (Spec.entryF Spec.Lit.value) exFloats.bytes := ⟨by decide, by decide⟩
example : Spec.entries (Spec.entryF (fun l => l)) exFloats.bytes =
    [(1, 2, ⟨none, str "0", some (str "5"), none⟩), (3, 3, ⟨some true, str "2", none, some (false, none, str "3")⟩),
     (0, 4, ⟨none, [], some (str "25"), none⟩)] := by decide

end Pigo
