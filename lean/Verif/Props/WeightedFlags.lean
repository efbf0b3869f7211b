import Verif.Lemmas.WeightedFlags2
import Verif.Props.Total

/-!
# Properties: arbitrary text with flags and any kind of weights

C88, continued.
-/

namespace Pigo

variable {W : Type}

/-- All executions of a load with weights end alike: all of them overflow a signed weight (only if `over`), all of them access memory
outside of the arrays, or all of them return arrays of the same size, at most `bound`. -/
def SameEnd (over : Prop) (bound : Nat) (run : M (Coo W) → Prop) : Prop :=
  (∃ out, run out) ∧
  ((over ∧ ∀ out, run out → out = .error .overflow) ∨ (∀ out, run out → out = .error .oob) ∨
   ∃ m ≤ bound, ∀ out, run out → ∃ c, out = .ok c ∧ c.m = m ∧ c.x.length = m ∧ c.y.length = m ∧ c.w.length = m)

theorem sameEnd_of {ov : Prop} [Nonempty W] {wk : WKind W} (hwgt : wk.wgt = true) (μ : Mapping) (hpad : 0 < μ.pad) (hw : ∀ e, EndB μ e → SafeW ov wk μ e)
    (lw ow T : Nat) (hT : 0 < T) (cfg : Cfg) : SameEnd ov μ.bytes.length (LoadEdgeList μ lw ow cfg wk T) := by
  refine ⟨readEl_any μ lw ow cfg wk T _, ?_⟩
  have he : EndB μ μ.bytes.length := ⟨0, by simp [Mapping.get, hpad], .inr rfl⟩
  have hrd : fileReader μ = rd μ.bytes.length μ.bytes := by simp [fileReader, rd]
  have := readEl_uniform (lw := lw) (ow := ow) (cfg := cfg) hw (View.full μ) he hT
  unfold LoadEdgeList
  rw [hrd]
  rw [hwgt] at this
  simpa only [if_true] using this

/-- **C88**, partial: any bytes, any flags, unsigned, signed or floating point weights (the arithmetic of the latter is arbitrary): nothing
outside of the file is read, every execution ends, and they all end alike.  Missing: the absence of stores outside of the arrays, which fails. -/
theorem C88_flags_partial (page : Nat) (hp : 0 < page) (file : List Byte) (hd : ¬ page ∣ file.length) (lw ow T : Nat) (hT : 0 < T) (cfg : Cfg) :
    (∀ ww, SameEnd False file.length (LoadEdgeList (mapFile page file) lw ow cfg (wUint ww) T)) ∧
    (∀ ww, SameEnd True file.length (LoadEdgeList (mapFile page file) lw ow cfg (wSint ww) T)) ∧
    (∀ (V : Type) (ops : FpOps V), SameEnd False file.length (LoadEdgeList (mapFile page file) lw ow cfg (wFp ops) T)) := by
  have hpad := (mapFile_pad (file := file) hp).mpr hd
  refine ⟨fun ww => ?_, fun ww => ?_, fun V ops => ?_⟩
  · exact sameEnd_of rfl (mapFile page file) hpad (fun e he => safe_uint he.readable ww) lw ow T hT cfg
  · exact sameEnd_of rfl (mapFile page file) hpad (fun e he => safe_sint he ww) lw ow T hT cfg
  · haveI : Nonempty V := ⟨ops.zero⟩
    exact sameEnd_of rfl (mapFile page file) hpad (fun e he => safe_fp he) lw ow T hT cfg

/-- Signs, exponents and points in places where nothing is expected. -/
example (cfg : Cfg) (T : Nat) (hT : 0 < T) (ops : FpOps Int) : ∃ out, LoadEdgeList (mapFile 4096 (str "1 2 -\n3 +4 1e\n5 6.7e-\n# 8\n9 -")) 32 64 cfg (wFp ops) T out :=
  ((C88_flags_partial 4096 (by decide) (str "1 2 -\n3 +4 1e\n5 6.7e-\n# 8\n9 -") (by decide) 32 64 T hT cfg).2.2 Int ops).1

/-- A signed weight that is too large: the overflow is one of the ends. -/
example : ∀ out, LoadEdgeList (mapFile 4096 (str "1 2 -128\n")) 32 64 {} (wSint 8) 1 out → out = .error .overflow := by
  have h : readElPlan (mapFile 4096 (str "1 2 -128\n")) 32 64 {} (wSint 8) 1 (fileReader (mapFile 4096 (str "1 2 -128\n"))) = .error .overflow := by decide
  intro out ho
  unfold LoadEdgeList ReadEl at ho
  rw [h] at ho
  exact ho

/-- The same for a file loaded as a Matrix Market file, where the load may also throw: all executions access memory outside of the
arrays, or none does; all of them overflow a signed weight, or none does. -/
theorem mmEnd_of {ov : Prop} {wk : WKind W} (hwgt : wk.wgt = true) (μ : Mapping) (hpad : 0 < μ.pad) (hw : ∀ e, EndB μ e → SafeW ov wk μ e)
    (lw ow T : Nat) (hT : 0 < T) (cfg : Cfg) :
    (ov ∧ ∀ out, LoadMm μ lw ow cfg wk T out → out = .error .overflow) ∨ (∀ out, LoadMm μ lw ow cfg wk T out → out = .error .oob) ∨
    ∀ out, LoadMm μ lw ow cfg wk T out → out = .error .nyi ∨ out = .error .error ∨
      ∃ c, out = .ok c ∧ c.m ≤ μ.bytes.length ∧ c.x.length = c.m ∧ c.y.length = c.m ∧ c.w.length = c.m := by
  have he : EndB μ μ.bytes.length := ⟨0, by simp [Mapping.get, hpad], .inr rfl⟩
  rcases readMmHeader_any (μ := μ) hpad lw ow with h | ⟨nr, nc, nnz, s, h, hs⟩
  · right; right
    intro out hrun
    unfold LoadMm ReadMm at hrun
    rw [h] at hrun
    exact .inl hrun
  · have := readEl_uniform (lw := lw) (ow := ow) (cfg := cfg) hw ((View.full μ).of_suffix hs) he hT
    have hbind : ∀ out, LoadMm μ lw ow cfg wk T out → ∃ o, ReadEl μ lw ow cfg wk T (rd μ.bytes.length s) o ∧ out = o.bind (mmCheck ow cfg nr nc nnz) := by
      intro out hrun
      unfold LoadMm ReadMm at hrun
      rw [h] at hrun
      exact hrun
    rcases this with ⟨ho, h1⟩ | h1 | ⟨m, hm, h1⟩
    · refine .inl ⟨ho, fun out hrun => ?_⟩
      obtain ⟨o, h2, rfl⟩ := hbind out hrun
      rw [h1 o h2]; rfl
    · refine .inr (.inl fun out hrun => ?_)
      obtain ⟨o, h2, rfl⟩ := hbind out hrun
      rw [h1 o h2]; rfl
    · refine .inr (.inr fun out hrun => ?_)
      obtain ⟨o, h2, rfl⟩ := hbind out hrun
      obtain ⟨c, rfl, a1, a2, a3, a4⟩ := h1 o h2
      rw [hwgt] at a4
      show mmCheck ow cfg nr nc nnz c = _ ∨ mmCheck ow cfg nr nc nnz c = _ ∨ ∃ c', mmCheck ow cfg nr nc nnz c = .ok c' ∧ _
      rcases mmCheck_cases (ow := ow) (cfg := cfg) (nr := nr) (nc := nc) (nnz := nnz) c with hk | ⟨_, _, hk⟩
      · exact .inr (.inl hk)
      · refine .inr (.inr ⟨_, hk, ?_, ?_, ?_, ?_⟩)
        · exact Nat.le_trans (by rw [← a1]; exact Nat.le_refl _) (Nat.le_trans hm hs.length_le)
        · exact a2.trans a1.symm
        · exact a3.trans a1.symm
        · exact a4.trans a1.symm

/-- **C88**, partial: the same for any bytes loaded as a weighted Matrix Market file. -/
theorem C88_matrix_market_partial (page : Nat) (hp : 0 < page) (file : List Byte) (hd : ¬ page ∣ file.length) (lw ow ww T : Nat) (hT : 0 < T) (cfg : Cfg) :
    (∃ out, LoadMm (mapFile page file) lw ow cfg (wUint ww) T out) ∧
    ((∀ out, LoadMm (mapFile page file) lw ow cfg (wUint ww) T out → out = .error .oob) ∨
     ∀ out, LoadMm (mapFile page file) lw ow cfg (wUint ww) T out → out = .error .nyi ∨ out = .error .error ∨
      ∃ c, out = .ok c ∧ c.m ≤ file.length ∧ c.x.length = c.m ∧ c.y.length = c.m ∧ c.w.length = c.m) ∧
    ((∀ out, LoadMm (mapFile page file) lw ow cfg (wSint ww) T out → out = .error .overflow) ∨
     (∀ out, LoadMm (mapFile page file) lw ow cfg (wSint ww) T out → out = .error .oob) ∨
     ∀ out, LoadMm (mapFile page file) lw ow cfg (wSint ww) T out → out = .error .nyi ∨ out = .error .error ∨
      ∃ c, out = .ok c ∧ c.m ≤ file.length ∧ c.x.length = c.m ∧ c.y.length = c.m ∧ c.w.length = c.m) ∧
    ∀ (V : Type) (ops : FpOps V),
     (∀ out, LoadMm (mapFile page file) lw ow cfg (wFp ops) T out → out = .error .oob) ∨
     ∀ out, LoadMm (mapFile page file) lw ow cfg (wFp ops) T out → out = .error .nyi ∨ out = .error .error ∨
      ∃ c, out = .ok c ∧ c.m ≤ file.length ∧ c.x.length = c.m ∧ c.y.length = c.m ∧ c.w.length = c.m := by
  have hpad := (mapFile_pad (file := file) hp).mpr hd
  refine ⟨readMm_any .., ?_, ?_, fun V ops => ?_⟩
  · exact (mmEnd_of rfl (mapFile page file) hpad (fun e he => safe_uint he.readable ww) lw ow T hT cfg).resolve_left (fun h => h.1)
  · exact (mmEnd_of rfl (mapFile page file) hpad (fun e he => safe_sint he ww) lw ow T hT cfg).imp And.right id
  · exact (mmEnd_of rfl (mapFile page file) hpad (fun e he => safe_fp he) lw ow T hT cfg).resolve_left (fun h => h.1)

/-- A header that announces more than there is, and a weight that is missing. -/
example (cfg : Cfg) (T : Nat) (hT : 0 < T) : ∃ out, LoadMm (mapFile 4096 (str "%%MatrixMarket matrix coordinate real\n9 9 3\n1 2 4\n7")) 32 64 cfg (wUint 8) T out :=
  (C88_matrix_market_partial 4096 (by decide) (str "%%MatrixMarket matrix coordinate real\n9 9 3\n1 2 4\n7") (by decide) 32 64 8 T hT cfg).1

/-- **C88 fails** with every combination of the flags and every kind of weights: a number alone at the end of the file is a store
outside of the array of weights. -/
theorem C88_lone_number_flags_violated (cfg : Cfg) (ops : FpOps Unit) :
    (∀ out, LoadEdgeList ⟨str "1 2 3\n7", 9⟩ 32 64 cfg (wUint 32) 1 out → out = .error .oob) ∧
    (∀ out, LoadEdgeList ⟨str "1 2 3\n7", 9⟩ 32 64 cfg (wSint 32) 1 out → out = .error .oob) ∧
    (∀ out, LoadEdgeList ⟨str "1 2 3\n7", 9⟩ 32 64 cfg (wFp ops) 1 out → out = .error .oob) := by
  have key : ∀ {W : Type} {wk : WKind W} (hw : wk.wgt = true) {p : Plan W} (hm : p.threads.any (fun l => l.any (fun a => match a with | .setW i _ => decide (p.m ≤ i) | _ => false)) = true),
      readElPlan ⟨str "1 2 3\n7", 9⟩ 32 64 cfg wk 1 (fileReader ⟨str "1 2 3\n7", 9⟩) = .ok p →
      ∀ out, LoadEdgeList ⟨str "1 2 3\n7", 9⟩ 32 64 cfg wk 1 out → out = .error .oob := by
    intro W wk hw p hm h out ho
    unfold LoadEdgeList ReadEl at ho
    rw [h] at ho
    obtain ⟨j, sched, hint, rfl⟩ := ho
    obtain ⟨l, hl, hl'⟩ := List.any_eq_true.mp hm
    obtain ⟨a, ha, ha'⟩ := List.any_eq_true.mp hl'
    have hmem : a ∈ sched := hint.perm.mem_iff.mpr (List.mem_flatten.mpr ⟨l, hl, ha⟩)
    have hf : ¬ fits p.m p.m a := by
      cases a with
      | setW i w => simp only [fits]; have := of_decide_eq_true ha'; omega
      | setX i v => cases ha'
      | setY i v => cases ha'
      | copyW d c => cases ha'
    have := (run_fits (m := p.m) (mw := p.m) sched (allocCoo wk.wgt j p.m) (by simp [allocCoo, alloc]) (by simp [allocCoo, alloc])
      (by simp [allocCoo, alloc, hw])).2 ⟨a, hmem, hf⟩
    unfold execPlan
    rw [this]
    rfl
  obtain ⟨sym, ut, sl⟩ := cfg
  refine ⟨?_, ?_, ?_⟩
  all_goals
    cases sym <;> cases ut <;> cases sl <;>
    first
    | exact key rfl (p := { m := 1, threads := [[.setW 0 3, .setX 0 1, .setY 0 2, .setW 1 0]], mr := 1, mc := 2 }) rfl (by rfl)
    | exact key rfl (p := { m := 2, threads := [[.setW 0 3, .setX 0 1, .setY 0 2, .copyW 1 0, .setY 1 1, .setX 1 2, .setW 2 0]], mr := 1, mc := 2 }) rfl (by rfl)
    | exact key rfl (p := { m := 1, threads := [[.setW 0 (), .setX 0 1, .setY 0 2, .setW 1 ()]], mr := 1, mc := 2 }) rfl (by rfl)
    | exact key rfl (p := { m := 2, threads := [[.setW 0 (), .setX 0 1, .setY 0 2, .copyW 1 0, .setY 1 1, .setX 1 2, .setW 2 ()]], mr := 1, mc := 2 }) rfl (by rfl)

end Pigo
