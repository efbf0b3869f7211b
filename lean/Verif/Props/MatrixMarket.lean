import Verif.Lemmas.MatrixMarket
import Verif.Props.EdgeList

/-!
# Properties of loading Matrix Market files (C21–C23)

About `LoadMm`: all executions of `COO(fn, MATRIX_MARKET)` with `T` threads.
-/

namespace Pigo

variable {W : Type}

/-- The header is consistent with the entries: all labels are within the declared dimensions, `N` is the number of
entries, and the numbers fit their types. -/
structure MmConsistent (lw ow R C N : Nat) (es : List (Nat × Nat × W)) : Prop where
  rows : ∀ e ∈ es, e.1 ≤ R
  cols : ∀ e ∈ es, e.2.1 ≤ C
  count : es.length = N
  fitR : R + 1 < 2 ^ lw
  fitC : C + 1 < 2 ^ lw
  fitN : N < 2 ^ ow

theorem MmConsistent.lab {lw ow R C N : Nat} {es : List (Nat × Nat × W)} (h : MmConsistent lw ow R C N es) :
    ∀ e ∈ es, e.1 < 2 ^ lw ∧ e.2.1 < 2 ^ lw := fun e he =>
  ⟨by have := h.rows e he; have := h.fitR; omega, by have := h.cols e he; have := h.fitC; omega⟩

theorem mod_succ {R lw : Nat} (h : R + 1 < 2 ^ lw) : (R % 2 ^ lw + 1) % 2 ^ lw = R + 1 := by
  rw [Nat.mod_eq_of_lt (by omega : R < 2 ^ lw), Nat.mod_eq_of_lt h]

/-- The dimensions computed from the entries are within the declared ones. -/
theorem cooOf_le {lw : Nat} {cfg : Cfg} {wgt : Bool} {es : List (Nat × Nat × W)} {R C : Nat}
    (hx : ∀ p ∈ prims cfg es, p.1 ≤ R) (hy : ∀ p ∈ prims cfg es, p.2.1 ≤ C) :
    (cooOf lw cfg wgt es).nrows ≤ R + 1 ∧ (cooOf lw cfg wgt es).ncols ≤ C + 1 := by
  have h1 : Spec.maxOf ((prims cfg es).map (·.1)) < R + 1 := maxOf_lt (by omega) (by
    intro a ha; obtain ⟨p, hp, rfl⟩ := List.mem_map.mp ha; have := hx p hp; omega)
  have h2 : Spec.maxOf ((prims cfg es).map (·.2.1)) < C + 1 := maxOf_lt (by omega) (by
    intro a ha; obtain ⟨p, hp, rfl⟩ := List.mem_map.mp ha; have := hy p hp; omega)
  constructor
  · exact Nat.le_trans (Nat.mod_le _ _) (by omega)
  · exact Nat.le_trans (Nat.mod_le _ _) (by omega)

/-- Whether the check of the number of entries fails: `N` declared, `m` stored. -/
def mmBad (cfg : Cfg) (N m : Nat) : Prop :=
  if cfg.sym = true then 2 * m < N else if cfg.sl = true then m < N else m ≠ N

instance (cfg : Cfg) (N m : Nat) : Decidable (mmBad cfg N m) := by unfold mmBad; infer_instance

/-- Every execution on a file whose stored labels are within the declared dimensions. -/
theorem loadMm_result {μ : Mapping} (hpad : 0 < μ.pad) {lw ow T : Nat} (hT : 0 < T) {R C N : Nat}
    {body : List (List Byte)} (h : Spec.MmFile μ.bytes R C N body) {wk : WKind W}
    {entry : List Byte → Option (Nat × Nat × W)} {wp : Nat × Nat × W → Prop} (hf : Format wk entry wp)
    (hok : Spec.BodyOk entry body) (hwp : ∀ en ∈ Spec.entriesOf entry body, wp en) (cfg : Cfg)
    (hlab : ∀ e ∈ Spec.entriesOf entry body, e.1 < 2 ^ lw ∧ e.2.1 < 2 ^ lw)
    (hrows : ∀ p ∈ prims cfg (Spec.entriesOf entry body), p.1 ≤ R)
    (hcols : ∀ p ∈ prims cfg (Spec.entriesOf entry body), p.2.1 ≤ C)
    (fitR : R + 1 < 2 ^ lw) (fitC : C + 1 < 2 ^ lw) (fitN : N < 2 ^ ow)
    (hd : WTrivial wk ∨ ∀ en ∈ Spec.entriesOf entry body, storedC cfg en ≠ [])
    (hm : (storedAll cfg (Spec.entriesOf entry body)).length < 2 ^ ow)
    (hm2 : cfg.sym = true → 2 * (storedAll cfg (Spec.entriesOf entry body)).length < 2 ^ ow) {out : M (Coo W)}
    (hrun : LoadMm μ lw ow cfg wk T out) :
    (mmBad cfg N (storedAll cfg (Spec.entriesOf entry body)).length → out = .error .error) ∧
    (¬ mmBad cfg N (storedAll cfg (Spec.entriesOf entry body)).length →
      ∃ c, out = .ok c ∧ Holds c wk.wgt (storedAll cfg (Spec.entriesOf entry body)) ∧ c.nrows = R + 1 ∧
        c.ncols = C + 1 ∧ c.n = max (R + 1) (C + 1)) := by
  have hl := loadMm_any hpad h (hf.ok lw) hok hwp hlab cfg hT hd
    hm hrun
  have hh := cooOf_holds lw cfg wk.wgt (Spec.entriesOf entry body)
  obtain ⟨h1, h2⟩ := cooOf_le (lw := lw) (wgt := wk.wgt) hrows hcols
  rw [mod_succ fitR, mod_succ fitC, Nat.mod_eq_of_lt fitN] at hl
  have hbad : (if cfg.sym then decide (N > twice ow (cooOf lw cfg wk.wgt (Spec.entriesOf entry body)).m)
      else if cfg.sl then decide (N > (cooOf lw cfg wk.wgt (Spec.entriesOf entry body)).m)
      else N != (cooOf lw cfg wk.wgt (Spec.entriesOf entry body)).m) =
      decide (mmBad cfg N (storedAll cfg (Spec.entriesOf entry body)).length) := by
    rw [hh.m, Bool.eq_iff_iff, decide_eq_true_eq]
    unfold mmBad
    by_cases hs : cfg.sym = true
    · rw [twice_lt (hm2 hs)]; simp [hs]
    · by_cases hsl : cfg.sl = true
      · simp [hs, hsl]
      · simp only [hs, hsl, if_false, bne_iff_ne, ne_eq, Bool.false_eq_true]; exact not_congr eq_comm
  unfold mmCheck at hl
  rw [if_pos h1, if_pos h2] at hl
  simp only [hbad] at hl
  constructor
  · intro hb
    rw [hl, if_pos (decide_eq_true hb)]
  · intro hb
    rw [if_neg (by simpa using hb)] at hl
    refine ⟨_, hl, ⟨hh.m, hh.x, hh.y, hh.w⟩, rfl, rfl, ?_⟩
    show (if R + 1 > C + 1 then R + 1 else C + 1) = _
    split
    · rw [Nat.max_eq_left]; omega
    · rw [Nat.max_eq_right]; omega

/-- Without `symmetric` only entries of the file are stored. -/
theorem mem_stored_of {cfg : Cfg} (hs : cfg.sym = false) {es : List (Nat × Nat × W)} {p : Nat × Nat × W}
    (hp : p ∈ storedAll cfg es) : p ∈ es := by
  unfold storedAll at hp
  rw [List.mem_flatMap] at hp
  obtain ⟨e, he, hp⟩ := hp
  obtain ⟨x, y, w⟩ := e
  obtain ⟨sym, ut, sl⟩ := cfg
  simp only at hs; subst hs
  have : p = (x, y, w) := by
    simp only [Spec.stored] at hp
    cases ut <;> cases sl <;> simp only [Bool.false_eq_true, false_and, true_and, if_false] at hp <;>
      (try split at hp) <;> (try split at hp) <;> simp_all
  rw [this]; exact he

/-- **C21** Loading a consistent coordinate Matrix Market file gives exactly its entries in file order (with their
weights), `m = nnz`, and the declared dimensions plus one. -/
theorem C21_matrix_market (μ : Mapping) (hpad : 0 < μ.pad) (lw ow T : Nat) (hT : 0 < T) {R C N : Nat}
    {body : List (List Byte)} (h : Spec.MmFile μ.bytes R C N body) {wk : WKind W}
    {entry : List Byte → Option (Nat × Nat × W)} {wp : Nat × Nat × W → Prop} (hf : Format wk entry wp)
    (hok : Spec.BodyOk entry body) (hwp : ∀ en ∈ Spec.entriesOf entry body, wp en)
    (hc : MmConsistent lw ow R C N (Spec.entriesOf entry body)) (out : M (Coo W))
    (hrun : LoadMm μ lw ow {} wk T out) :
    ∃ c, out = .ok c ∧ Holds c wk.wgt (Spec.entriesOf entry body) ∧ c.m = N ∧ c.nrows = R + 1 ∧ c.ncols = C + 1 ∧
      c.n = max (R + 1) (C + 1) := by
  have hpr : ∀ p ∈ prims ({} : Cfg) (Spec.entriesOf entry body), p ∈ Spec.entriesOf entry body :=
    fun p hp => mem_stored_of rfl (mem_prims hp)
  have hres := loadMm_result hpad hT h hf hok hwp {} hc.lab (fun p hp => hc.rows p (hpr p hp))
    (fun p hp => hc.cols p (hpr p hp)) hc.fitR hc.fitC hc.fitN
    (.inr (fun en _ => by obtain ⟨x, y, w⟩ := en; simp [storedC, Spec.stored]))
    (by rw [storedAll_plain, hc.count]; exact hc.fitN) (by simp) hrun
  rw [storedAll_plain, hc.count] at hres
  obtain ⟨c, h1, h2, h3⟩ := hres.2 (by simp [mmBad])
  exact ⟨c, h1, h2, h2.m.trans hc.count, h3⟩

/-- A Matrix Market file with a comment, a blank line and an attribute in the header. -/
def exMm : Mapping :=
  ⟨str "%%MatrixMarket matrix coordinate integer general\n% made by 3\n 4 5 3\n1 2 7\n\n4 5 -8 % c\n2 2 9\n", 4000⟩

def exMmBody : List (List Byte) := [str "1 2 7", [], str "4 5 -8 % c", str "2 2 9", []]

theorem exMm_file : Spec.MmFile exMm.bytes 4 5 3 exMmBody :=
  ⟨by decide, by decide, [str "%%MatrixMarket matrix coordinate integer general", str "% made by 3"], str " 4 5 3",
    by decide, by decide, [], by decide⟩

theorem exMm_entries : Spec.entriesOf Spec.entryS exMmBody = [(1, 2, 7), (4, 5, -8), (2, 2, 9)] := by decide

theorem exMm_body : Spec.BodyOk Spec.entryS exMmBody := ⟨by decide, by
  intro l h
  have : l = [] := by simpa [exMmBody] using h.symm
  subst this; decide⟩

example : ∃ out c, LoadMm exMm 32 64 {} (wSint 32) 3 out ∧ out = .ok c ∧ c.x = [1, 4, 2] ∧ c.y = [2, 5, 2] ∧
    c.w = [7, -8, 9] ∧ c.nrows = 5 ∧ c.n = 6 := by
  obtain ⟨out, h⟩ := loadMm_exists (μ := exMm) (lw := 32) (ow := 64) (wk := wSint 32) {} 3
    ⟨fun _ => 0, fun _ => 0, fun _ => 0⟩
  have hc : MmConsistent 32 64 4 5 3 (Spec.entriesOf Spec.entryS exMmBody) := by
    rw [exMm_entries]; exact ⟨by decide, by decide, rfl, by decide, by decide, by decide⟩
  obtain ⟨c, h1, h2, _, h3, _, h4⟩ := C21_matrix_market exMm (by decide) 32 64 3 (by decide) exMm_file (.sint 32)
    exMm_body (by rw [exMm_entries]; decide) hc out h
  rw [exMm_entries] at h2
  exact ⟨out, c, h, h1, h2.x, h2.y, h2.w rfl, h3, h4⟩

/-! ### C22 -/

/-- **C22** A file that does not start with the coordinate banner is rejected, whatever else it contains. -/
theorem C22_no_banner (μ : Mapping) (lw ow T : Nat) (cfg : Cfg) (wk : WKind W) (h : ¬ Spec.banner <+: μ.bytes)
    (out : M (Coo W)) (hrun : LoadMm μ lw ow cfg wk T out) : out = .error .nyi := by
  unfold LoadMm ReadMm readMmHeader at hrun
  have : atStr μ mmBanner (fileReader μ) = .ok false := by
    rw [atStr_file]; congr 1
    exact decide_eq_false (fun hh => h hh.1)
  rw [this] at hrun
  exact hrun

example : ¬ Spec.banner <+: str "%%MatrixMarket matrix array real general\n2 2\n1\n2\n3\n4\n" := by decide

/-- **C22** A file with a stored entry outside of the declared rows or columns is rejected. -/
theorem C22_entry_outside (μ : Mapping) (hpad : 0 < μ.pad) (lw ow T : Nat) (hT : 0 < T) {R C N : Nat}
    {body : List (List Byte)} (h : Spec.MmFile μ.bytes R C N body) {wk : WKind W}
    {entry : List Byte → Option (Nat × Nat × W)} {wp : Nat × Nat × W → Prop} (hf : Format wk entry wp)
    (hok : Spec.BodyOk entry body) (hwp : ∀ en ∈ Spec.entriesOf entry body, wp en)
    (hlab : ∀ e ∈ Spec.entriesOf entry body, e.1 + 1 < 2 ^ lw ∧ e.2.1 + 1 < 2 ^ lw)
    (fitR : R + 1 < 2 ^ lw) (fitC : C + 1 < 2 ^ lw) (hm : (Spec.entriesOf entry body).length < 2 ^ ow)
    (hbad : ∃ e ∈ Spec.entriesOf entry body, R < e.1 ∨ C < e.2.1) (out : M (Coo W))
    (hrun : LoadMm μ lw ow {} wk T out) : out = .error .error := by
  have hl := loadMm_any hpad h (hf.ok lw) hok hwp (fun e he => ⟨by have := (hlab e he).1; omega, by
    have := (hlab e he).2; omega⟩) {} hT (.inr (fun en _ => by obtain ⟨x, y, w⟩ := en; simp [storedC, Spec.stored]))
    (by rw [show (Spec.entriesOf entry body).flatMap (storedC {}) = _ from storedAll_plain _]; exact hm) hrun
  rw [mod_succ fitR, mod_succ fitC] at hl
  have hpr : prims ({} : Cfg) (Spec.entriesOf entry body) = Spec.entriesOf entry body := by
    rw [prims_eq_stored (.inl rfl), storedAll_plain]
  have hmx : ∀ (f : Nat × Nat × W → Nat), (∀ e ∈ Spec.entriesOf entry body, f e + 1 < 2 ^ lw) →
      ∀ e ∈ Spec.entriesOf entry body, f e + 1 ≤ (Spec.maxOf ((Spec.entriesOf entry body).map f) + 1) % 2 ^ lw := by
    intro f hfl e he
    have h1 := le_maxOf (List.mem_map_of_mem (f := f) he)
    have h2 : Spec.maxOf ((Spec.entriesOf entry body).map f) + 1 < 2 ^ lw := by
      have := maxOf_mem (l := (Spec.entriesOf entry body).map f) (by
        intro hc; rw [List.map_eq_nil_iff] at hc; rw [hc] at he; cases he)
      obtain ⟨e', he', hh⟩ := List.mem_map.mp this
      rw [← hh]; exact hfl e' he'
    rw [Nat.mod_eq_of_lt h2]; omega
  unfold mmCheck at hl
  have hrow : (cooOf lw {} wk.wgt (Spec.entriesOf entry body)).nrows =
      (Spec.maxOf ((Spec.entriesOf entry body).map (fun e => e.1)) + 1) % 2 ^ lw := by
    show (Spec.maxOf ((prims _ _).map _) + 1) % _ = _; rw [hpr]
  have hcol : (cooOf lw {} wk.wgt (Spec.entriesOf entry body)).ncols =
      (Spec.maxOf ((Spec.entriesOf entry body).map (fun e => e.2.1)) + 1) % 2 ^ lw := by
    show (Spec.maxOf ((prims _ _).map _) + 1) % _ = _; rw [hpr]
  rw [hrow, hcol] at hl
  obtain ⟨e, he, hb⟩ := hbad
  rw [hl]
  rcases hb with hb | hb
  · have := hmx (fun e => e.1) (fun e he => (hlab e he).1) e he
    rw [if_neg (by omega)]
  · have := hmx (fun e => e.2.1) (fun e he => (hlab e he).2) e he
    split
    · rw [if_neg (by omega)]
    · rfl

/-- **C22 fails** for the largest label of the type: its successor wraps to 0, which passes the check of the rows, so that
the entry outside of the declared matrix is accepted; the COO then has a label that is not below `n()`. -/
theorem C22_largest_label_violated (μ : Mapping) (hpad : 0 < μ.pad) (lw ow T : Nat) (hT : 0 < T) {R C : Nat}
    {body : List (List Byte)} {wk : WKind W} {entry : List Byte → Option (Nat × Nat × W)}
    (h : Spec.MmFile μ.bytes R C (Spec.entriesOf entry body).length body) {wp : Nat × Nat × W → Prop} (hf : Format wk entry wp)
    (hok : Spec.BodyOk entry body) (hwp : ∀ en ∈ Spec.entriesOf entry body, wp en)
    (hlab : ∀ e ∈ Spec.entriesOf entry body, e.1 < 2 ^ lw ∧ e.2.1 ≤ C)
    (fitR : R + 1 < 2 ^ lw) (fitC : C + 1 < 2 ^ lw) (hm : (Spec.entriesOf entry body).length < 2 ^ ow)
    (htop : ∃ e ∈ Spec.entriesOf entry body, e.1 = 2 ^ lw - 1) (out : M (Coo W)) (hrun : LoadMm μ lw ow {} wk T out) :
    ∃ c, out = .ok c ∧ Holds c wk.wgt (Spec.entriesOf entry body) ∧ c.nrows = R + 1 ∧ c.ncols = C + 1 ∧ c.n = max (R + 1) (C + 1) ∧
      ∃ a ∈ c.x, c.n ≤ a := by
  have hl := loadMm_any hpad h (hf.ok lw) hok hwp (fun e he => ⟨(hlab e he).1, by
    have := (hlab e he).2; omega⟩) {} hT (.inr (fun en _ => by obtain ⟨x, y, w⟩ := en; simp [storedC, Spec.stored]))
    (by rw [show (Spec.entriesOf entry body).flatMap (storedC {}) = _ from storedAll_plain _]; exact hm) hrun
  rw [mod_succ fitR, mod_succ fitC, Nat.mod_eq_of_lt hm] at hl
  have hpr : prims ({} : Cfg) (Spec.entriesOf entry body) = Spec.entriesOf entry body := by
    rw [prims_eq_stored (.inl rfl), storedAll_plain]
  have hb : 0 < 2 ^ lw := Nat.two_pow_pos lw
  have hh := cooOf_holds lw {} wk.wgt (Spec.entriesOf entry body)
  rw [storedAll_plain] at hh
  obtain ⟨e, he, htop⟩ := htop
  have hrow : (cooOf lw {} wk.wgt (Spec.entriesOf entry body)).nrows = 0 := by
    show (Spec.maxOf ((prims _ _).map _) + 1) % _ = _
    rw [hpr]
    have h1 := le_maxOf (List.mem_map_of_mem (f := fun e : Nat × Nat × W => e.1) he)
    have h2 : Spec.maxOf ((Spec.entriesOf entry body).map (fun e => e.1)) < 2 ^ lw := maxOf_lt hb (by
      intro a ha; obtain ⟨p, hp, rfl⟩ := List.mem_map.mp ha; exact (hlab p hp).1)
    rw [show Spec.maxOf ((Spec.entriesOf entry body).map (fun e => e.1)) + 1 = 2 ^ lw by omega, Nat.mod_self]
  have hcol := (cooOf_le (lw := lw) (cfg := {}) (wgt := wk.wgt) (es := Spec.entriesOf entry body) (R := 2 ^ lw) (C := C)
    (by rw [hpr]; intro p hp; exact Nat.le_of_lt (hlab p hp).1) (by rw [hpr]; intro p hp; exact (hlab p hp).2)).2
  unfold mmCheck at hl
  rw [if_pos (by omega), if_pos hcol] at hl
  simp only [Bool.false_eq_true, if_false, hh.m, bne_self_eq_false] at hl
  refine ⟨_, hl, ⟨rfl, hh.x, hh.y, hh.w⟩, rfl, rfl, by dsimp only; split <;> omega, e.1, ?_, ?_⟩
  · dsimp only
    rw [hh.x]; exact List.mem_map_of_mem (f := fun e : Nat × Nat × W => e.1) he
  · dsimp only
    split <;> omega

/-- A file of a 2 × 2 matrix with an entry in row 65535, with 16 bit labels. -/
def exMmTop : Mapping := ⟨str "%%MatrixMarket matrix coordinate pattern general\n2 2 2\n65535 1\n1 2\n", 4000⟩

def exMmTopBody : List (List Byte) := [str "65535 1", str "1 2", []]

example : Spec.MmFile exMmTop.bytes 2 2 (Spec.entriesOf Spec.entry0 exMmTopBody).length exMmTopBody ∧ Spec.BodyOk Spec.entry0 exMmTopBody ∧
    (∀ e ∈ Spec.entriesOf Spec.entry0 exMmTopBody, e.1 < 2 ^ 16 ∧ e.2.1 ≤ 2) ∧
    ∃ e ∈ Spec.entriesOf Spec.entry0 exMmTopBody, e.1 = 2 ^ 16 - 1 := by
  have hent : Spec.entriesOf Spec.entry0 exMmTopBody = [(65535, 1, ()), (1, 2, ())] := by decide
  refine ⟨?_, ?_, ?_, ?_⟩
  · exact ⟨by decide, by decide, ⟨[str "%%MatrixMarket matrix coordinate pattern general"], str "2 2 2", by decide, by decide, [], by decide⟩⟩
  · exact ⟨by decide, by
      intro l h
      have : l = [] := by simpa [exMmTopBody] using h.symm
      subst this; decide⟩
  · rw [hent]; decide
  · rw [hent]; decide

/-- **C22** A file with another number of entries than declared is rejected (no flags). -/
theorem C22_wrong_count (μ : Mapping) (hpad : 0 < μ.pad) (lw ow T : Nat) (hT : 0 < T) {R C N : Nat}
    {body : List (List Byte)} (h : Spec.MmFile μ.bytes R C N body) {wk : WKind W}
    {entry : List Byte → Option (Nat × Nat × W)} {wp : Nat × Nat × W → Prop} (hf : Format wk entry wp)
    (hok : Spec.BodyOk entry body) (hwp : ∀ en ∈ Spec.entriesOf entry body, wp en)
    (hlab : ∀ e ∈ Spec.entriesOf entry body, e.1 < 2 ^ lw ∧ e.2.1 < 2 ^ lw)
    (fitN : N < 2 ^ ow) (hm : (Spec.entriesOf entry body).length < 2 ^ ow)
    (hbad : (Spec.entriesOf entry body).length ≠ N) (out : M (Coo W))
    (hrun : LoadMm μ lw ow {} wk T out) : out = .error .error := by
  have hl := loadMm_any hpad h (hf.ok lw) hok hwp hlab {} hT
    (.inr (fun en _ => by obtain ⟨x, y, w⟩ := en; simp [storedC, Spec.stored]))
    (by rw [show (Spec.entriesOf entry body).flatMap (storedC {}) = _ from storedAll_plain _]; exact hm) hrun
  have hm' : (cooOf lw {} wk.wgt (Spec.entriesOf entry body)).m = (Spec.entriesOf entry body).length := by
    have := (cooOf_holds lw {} wk.wgt (Spec.entriesOf entry body)).m
    rwa [storedAll_plain] at this
  unfold mmCheck at hl
  rw [hl]
  split
  · split
    · simp only [Bool.false_eq_true, if_false, hm', Nat.mod_eq_of_lt fitN]
      rw [if_pos]
      simp only [bne_iff_ne, ne_eq]; exact fun hh => hbad hh.symm
    · rfl
  · rfl

/-- Files meeting the hypotheses of the two theorems. -/
example : Spec.MmFile (str "%%MatrixMarket matrix coordinate\n2 2 1\n3 1\n") 2 2 1 [str "3 1", []] ∧
    (Spec.BodyOk Spec.entry0 [str "3 1", []]) ∧ (∃ e ∈ Spec.entriesOf Spec.entry0 [str "3 1", []], 2 < e.1 ∨ 2 < e.2.1) ∧
    Spec.MmFile (str "%%MatrixMarket matrix coordinate\n2 2 3\n2 1\n") 2 2 3 [str "2 1", []] ∧
    (Spec.entriesOf Spec.entry0 [str "2 1", []]).length ≠ 3 := by
  refine ⟨⟨by decide, by decide, [_], _, rfl, by decide, [], by decide⟩, ⟨by decide, ?_⟩, by decide,
    ⟨by decide, by decide, [_], _, rfl, by decide, [], by decide⟩, by decide⟩
  intro l h
  have : l = [] := by simpa using h.symm
  subst this; decide

/-! ### C23 -/

/-- **C23**, what holds: if the flags drop no entry of the (consistent) file, it loads. -/
theorem C23_filters_partial (μ : Mapping) (hpad : 0 < μ.pad) (lw ow T : Nat) (hT : 0 < T) {R C N : Nat}
    {body : List (List Byte)} (h : Spec.MmFile μ.bytes R C N body)
    (hok : Spec.BodyOk Spec.entry0 body) (cfg : Cfg) (hs : cfg.sym = false)
    (hc : MmConsistent lw ow R C N (Spec.entriesOf Spec.entry0 body))
    (hkeep : (storedAll cfg (Spec.entriesOf Spec.entry0 body)).length = N) (out : M (Coo Unit))
    (hrun : LoadMm μ lw ow cfg wNone T out) :
    ∃ c, out = .ok c ∧ Holds c false (storedAll cfg (Spec.entriesOf Spec.entry0 body)) ∧ c.nrows = R + 1 ∧
      c.ncols = C + 1 ∧ c.n = max (R + 1) (C + 1) := by
  have hpr : ∀ p ∈ prims cfg (Spec.entriesOf Spec.entry0 body), p ∈ Spec.entriesOf Spec.entry0 body :=
    fun p hp => mem_stored_of hs (mem_prims hp)
  have hres := loadMm_result hpad hT h .none hok (fun _ _ => trivial) cfg hc.lab (fun p hp => hc.rows p (hpr p hp))
    (fun p hp => hc.cols p (hpr p hp)) hc.fitR hc.fitC hc.fitN (.inl wNone_trivial) (by rw [hkeep]; exact hc.fitN)
    (by simp [hs]) hrun
  exact hres.2 (by rw [hkeep]; unfold mmBad; simp [hs])

/-- **C23 fails**: a consistent Matrix Market file is rejected as soon as `remove_self_loops` or
`keep_upper_triangle_only` drops one of its entries, because the number of entries is checked after filtering. -/
theorem C23_filters_violated (μ : Mapping) (hpad : 0 < μ.pad) (lw ow T : Nat) (hT : 0 < T) {R C N : Nat}
    {body : List (List Byte)} (h : Spec.MmFile μ.bytes R C N body)
    (hok : Spec.BodyOk Spec.entry0 body) (cfg : Cfg) (hs : cfg.sym = false)
    (hc : MmConsistent lw ow R C N (Spec.entriesOf Spec.entry0 body))
    (hdrop : (storedAll cfg (Spec.entriesOf Spec.entry0 body)).length < N) (out : M (Coo Unit))
    (hrun : LoadMm μ lw ow cfg wNone T out) : out = .error .error := by
  have hpr : ∀ p ∈ prims cfg (Spec.entriesOf Spec.entry0 body), p ∈ Spec.entriesOf Spec.entry0 body :=
    fun p hp => mem_stored_of hs (mem_prims hp)
  have hN := hc.fitN
  have hres := loadMm_result hpad hT h .none hok (fun _ _ => trivial) cfg hc.lab (fun p hp => hc.rows p (hpr p hp))
    (fun p hp => hc.cols p (hpr p hp)) hc.fitR hc.fitC hc.fitN (.inl wNone_trivial) (by omega)
    (by simp [hs]) hrun
  refine hres.1 ?_
  unfold mmBad; simp only [hs, Bool.false_eq_true, if_false]
  split <;> omega

/-- **C23**, with `symmetric` (and without `remove_self_loops`) a consistent square file loads. -/
theorem C23_symmetric_partial (μ : Mapping) (hpad : 0 < μ.pad) (lw ow T : Nat) (hT : 0 < T) {R N : Nat}
    {body : List (List Byte)} (h : Spec.MmFile μ.bytes R R N body)
    (hok : Spec.BodyOk Spec.entry0 body) (cfg : Cfg) (hs : cfg.sym = true) (hsl : cfg.sl = false)
    (hc : MmConsistent lw ow R R N (Spec.entriesOf Spec.entry0 body)) (hfit : 4 * N < 2 ^ ow) (out : M (Coo Unit))
    (hrun : LoadMm μ lw ow cfg wNone T out) :
    ∃ c, out = .ok c ∧ Holds c false (storedAll cfg (Spec.entriesOf Spec.entry0 body)) ∧ c.nrows = R + 1 ∧
      c.ncols = R + 1 ∧ c.n = R + 1 := by
  have hlen : ∀ es : List (Nat × Nat × Unit), es.length ≤ (storedAll cfg es).length ∧
      (storedAll cfg es).length ≤ 2 * es.length := by
    intro es
    induction es with
    | nil => simp [storedAll]
    | cons e es ih =>
      have h1 : storedAll cfg (e :: es) = Spec.stored cfg.sym cfg.ut cfg.sl e ++ storedAll cfg es := rfl
      have h2 : 1 ≤ (Spec.stored cfg.sym cfg.ut cfg.sl e).length ∧ (Spec.stored cfg.sym cfg.ut cfg.sl e).length ≤ 2 := by
        obtain ⟨x, y, w⟩ := e
        rw [hs, hsl]
        cases cfg.ut
        · simp only [Spec.stored, Bool.false_eq_true, false_and, if_false]; split <;> simp
        · simp [Spec.stored]
      rw [h1, List.length_append, List.length_cons]; omega
  have hle := hlen (Spec.entriesOf Spec.entry0 body)
  rw [hc.count] at hle
  have hb : ∀ p ∈ prims cfg (Spec.entriesOf Spec.entry0 body), p.1 ≤ R ∧ p.2.1 ≤ R := by
    intro p hp
    have hp' := mem_prims hp
    unfold storedAll at hp'
    rw [List.mem_flatMap] at hp'
    obtain ⟨e, he, hpe⟩ := hp'
    have h1 := hc.rows e he
    have h2 := hc.cols e he
    obtain ⟨q, _, h3, h4⟩ := mem_stored hpe
    rcases h3 with h3 | h3 <;> rcases h4 with h4 | h4 <;> omega
  have hres := loadMm_result hpad hT h .none hok (fun _ _ => trivial) cfg hc.lab (fun p hp => (hb p hp).1)
    (fun p hp => (hb p hp).2) hc.fitR hc.fitC hc.fitN (.inl wNone_trivial) (by omega) (fun _ => by omega) hrun
  obtain ⟨c, h1, h2, h3, h4, h5⟩ := hres.2 (by unfold mmBad; rw [if_pos hs]; omega)
  exact ⟨c, h1, h2, h3, h4, by rw [h5, Nat.max_self]⟩

/-- A consistent file with one self-loop: it cannot be loaded with `remove_self_loops`. -/
example : Spec.MmFile (str "%%MatrixMarket matrix coordinate\n2 2 2\n2 1\n1 1\n") 2 2 2 [str "2 1", str "1 1", []] ∧
    MmConsistent 32 64 2 2 2 (Spec.entriesOf Spec.entry0 [str "2 1", str "1 1", []]) ∧
    (storedAll { sl := true } (Spec.entriesOf Spec.entry0 [str "2 1", str "1 1", []])).length < 2 ∧
    (storedAll { ut := true } (Spec.entriesOf Spec.entry0 [str "2 1", str "1 1", []])).length < 2 := by
  have he : Spec.entriesOf Spec.entry0 [str "2 1", str "1 1", []] = [(2, 1, ()), (1, 1, ())] := by decide
  rw [he]
  exact ⟨⟨by decide, by decide, [_], _, rfl, by decide, [], by decide⟩,
    ⟨by decide, by decide, rfl, by decide, by decide, by decide⟩, by decide, by decide⟩

end Pigo
