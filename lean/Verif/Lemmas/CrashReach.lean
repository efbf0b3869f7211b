import Verif.Lemmas.CrashBlank

/-!
# Interrupted saves: which contents do occur
-/

namespace Pigo

open Spec

variable {W : Type}

/-- Some part is written in part, the ones before it completely. -/
def Reached (n : Nat) : List (List Byte) → List (List Byte) → List Byte → Prop
  | _, [], _ => False
  | done, bs :: parts, s => (∃ j, j ≤ bs.length ∧ s = stage n (done ++ [bs.take j])) ∨ Reached n (done ++ [bs]) parts s

theorem stage_flatten {n : Nat} {a b : List (List Byte)} (h : a.flatten = b.flatten) : stage n a = stage n b := by
  rw [stage, stage, h]

theorem reached_prefix (n : Nat) : ∀ (parts done : List (List Byte)), parts ≠ [] → ∀ j, j ≤ parts.flatten.length →
    Reached n done parts (stage n (done ++ [parts.flatten.take j]))
  | [], _, h, _, _ => absurd rfl h
  | bs :: parts, done, _, j, hj => by
    rw [List.flatten_cons, List.length_append] at hj
    by_cases hb : j ≤ bs.length
    · left
      exact ⟨j, hb, by rw [List.flatten_cons, List.take_append_of_le_length hb]⟩
    · right
      have hne : parts ≠ [] := by
        rintro rfl
        simp at hj; omega
      have ih := reached_prefix n parts (done ++ [bs]) hne (j - bs.length) (by omega)
      rw [show stage n (done ++ [(bs :: parts).flatten.take j]) = stage n (done ++ [bs] ++ [parts.flatten.take (j - bs.length)]) from
        stage_flatten (by
          simp only [List.flatten_append, List.flatten_singleton, List.flatten_cons, List.append_assoc]
          rw [List.take_append, List.take_of_length_le (by omega : bs.length ≤ j)]
          simp)]
      exact ih

theorem blockActs_take : ∀ (p j : Nat) (bs : List Byte), (blockActs p bs).take j = blockActs p (bs.take j)
  | _, 0, _ => by simp [blockActs]
  | _, _ + 1, [] => rfl
  | p, j + 1, b :: bs => by
    simp only [blockActs, List.take_succ_cons]
    rw [blockActs_take (p + 1) j bs]

theorem wBytesO_reach {f : WFile} {n : Nat} {done : List (List Byte)} (h : Done f n done) (bs : List Byte) (hs : done.flatten.length + bs.length ≤ n)
    {j : Nat} (hj : j ≤ bs.length) : (wBytesO bs f).seen (stage n (done ++ [bs.take j])) := by
  have hl : f.bytes.length = n := by rw [h.bytes, stage_length h.pos h.room]
  have hlt : (bs.take j).length = j := by rw [List.length_take]; omega
  refine ⟨j, ?_⟩
  rw [blockActs_take, run_block (List.Perm.refl _) f.bytes (by rw [h.fp, hl, hlt]; omega), stage_snoc, h.fp, h.bytes]

theorem parWriteO_reach {f : WFile} {n : Nat} {done : List (List Byte)} (h : Done f n done) {T : Nat} (hT : 0 < T) (v : List Byte) {len : Nat}
    (hv : v.length = len) (hs : done.flatten.length + len ≤ n) {j : Nat} (hj : j ≤ v.length) : (parWriteO T v len f).seen (stage n (done ++ [v.take j])) := by
  have hl : f.bytes.length = n := by rw [h.bytes, stage_length h.pos h.room]
  subst hv
  have hlt : (v.take j).length = j := by rw [List.length_take]; omega
  have hc := chunks_ok (v := load v) (bs := v) (fun _ _ => rfl) f.fp v.length T rfl
  have hall := chunks_all v f.fp v.length T hT rfl
  unfold parWriteO
  refine .inr ⟨_, hc.symm, .inl ⟨_, j, interleave_flatten _, ?_⟩⟩
  rw [hall, blockActs_take, run_block (List.Perm.refl _) f.bytes (by rw [h.fp, hl, hlt]; omega), stage_snoc, h.fp, h.bytes]

theorem saveWeightsO_reach {f : WFile} {n : Nat} {done : List (List Byte)} (h : Done f n done) {T : Nat} (hT : 0 < T) {wgt : Bool} (cw : Codec W)
    {m : Nat} {w : List W} (hw : w.length = if wgt then m else 0) (hs : done.flatten.length + weightSize wgt cw m ≤ n) {j : Nat}
    (hj : j ≤ (if wgt then rawArr cw.enc w else []).length) (h0 : 0 < weightSize wgt cw m) :
    (saveWeightsO T wgt cw m w f).seen (stage n (done ++ [(if wgt then rawArr cw.enc w else []).take j])) := by
  have hl : wgt = true → (rawArr cw.enc w).length = cw.size * m := fun h => by rw [rawArr_length cw.len, hw, if_pos h]
  unfold saveWeightsO
  rw [if_pos h0]
  cases wgt with
  | false => simp [weightSize] at h0
  | true => simp only [if_pos] at hj ⊢; exact parWriteO_reach h hT _ (by rw [hl rfl]; rfl) hs hj

theorem Obs.reach_bind {α β : Type} {p : Obs α} {k : α → Obs β} {D : α → Prop} {n : Nat} {done : List (List Byte)} {bs : List Byte} {parts : List (List Byte)}
    (ha : p.run.Any) (hp : p.run.All D) (h1 : ∀ j, j ≤ bs.length → p.seen (stage n (done ++ [bs.take j])))
    (hk : ∀ a, D a → ∀ s, Reached n (done ++ [bs]) parts s → (k a).seen s) : ∀ s, Reached n done (bs :: parts) s → (p >>= k).seen s := by
  rintro s (⟨j, hj, rfl⟩ | h)
  · exact .inl (h1 j hj)
  · exact Obs.seen_bind ha hp (fun a hd => hk a hd s h)

theorem reach_w {β : Type} {k : WFile → Obs β} {f : WFile} {n : Nat} {done : List (List Byte)} (h : Done f n done) (bs : List Byte)
    (hs : done.flatten.length + bs.length ≤ n) {parts : List (List Byte)}
    (hk : ∀ f, Done f n (done ++ [bs]) → ∀ s, Reached n (done ++ [bs]) parts s → (k f).seen s) :
    ∀ s, Reached n done (bs :: parts) s → (wBytesO bs f >>= k).seen s :=
  Obs.reach_bind (wBytesO_any ..) (wBytesO_seg h bs hs).1 (fun _ hj => wBytesO_reach h bs hs hj) hk

theorem reach_p {β : Type} {k : WFile → Obs β} {f : WFile} {n : Nat} {done : List (List Byte)} (h : Done f n done) {T : Nat} (hT : 0 < T) (v : List Byte)
    {len : Nat} (hv : v.length = len) (hs : done.flatten.length + len ≤ n) {parts : List (List Byte)}
    (hk : ∀ f, Done f n (done ++ [v]) → ∀ s, Reached n (done ++ [v]) parts s → (k f).seen s) :
    ∀ s, Reached n done (v :: parts) s → (parWriteO T v len f >>= k).seen s :=
  Obs.reach_bind (parWriteO_any ..) (parWriteO_seg h hT v hv hs).1 (fun _ hj => parWriteO_reach h hT v hv hs hj) hk

/-- The weights, if there are any bytes of weights. -/
def wBlock (wgt : Bool) (cw : Codec W) (m : Nat) (w : List W) : List (List Byte) :=
  if 0 < weightSize wgt cw m then [if wgt then rawArr cw.enc w else []] else []

theorem saveWeightsO_reached {f : WFile} {n : Nat} {done : List (List Byte)} (h : Done f n done) {T : Nat} (hT : 0 < T) {wgt : Bool} (cw : Codec W)
    {m : Nat} {w : List W} (hw : w.length = if wgt then m else 0) (hs : done.flatten.length + weightSize wgt cw m ≤ n) :
    ∀ s, Reached n done (wBlock wgt cw m w) s → (saveWeightsO T wgt cw m w f).seen s := by
  unfold wBlock
  split
  · rename_i h0
    rintro s (⟨j, hj, rfl⟩ | hr)
    · exact saveWeightsO_reach h hT cw hw hs hj h0
    · exact hr.elim
  · intro s hr; exact hr.elim

theorem wBlock_flatten {wgt : Bool} {cw : Codec W} {m : Nat} {w : List W} (hw : w.length = if wgt then m else 0) :
    (wBlock wgt cw m w).flatten = if wgt then rawArr cw.enc w else [] := by
  unfold wBlock
  split
  · simp
  · rename_i h0
    cases wgt with
    | false => rfl
    | true =>
      simp only [if_pos] at hw ⊢
      symm
      apply List.eq_nil_of_length_eq_zero
      rw [rawArr_length cw.len, hw]
      simp only [weightSize, if_pos] at h0
      omega

theorem reached_first {n : Nat} {parts : List (List Byte)} (hne : parts ≠ []) {new : List Byte} (he : parts.flatten = new) {j : Nat} (hj : j ≤ new.length) :
    Reached n [] parts (new.take j ++ (blank n).drop j) := by
  subst he
  have := reached_prefix n parts [] hne j hj
  rw [show parts.flatten.take j ++ (blank n).drop j = stage n ([] ++ [parts.flatten.take j]) by
    rw [stage]
    simp only [List.nil_append, List.flatten_singleton, List.length_take]
    rw [Nat.min_eq_left hj]]
  exact this

theorem saveCooO_reach {old : List Byte} {T lb ob : Nat} (hT : 0 < T) {wgt : Bool} (cw : Codec W) {c : Coo W} (h : Spec.FitsCoo lb ob wgt cw c) {j : Nat}
    (hj : j ≤ (Spec.cooFile lb ob wgt cw c).length) :
    (saveCooO old T lb ob wgt cw c).seen ((Spec.cooFile lb ob wgt cw c).take j ++ (blank (Spec.cooFile lb ob wgt cw c).length).drop j) := by
  have hl := cooBytes_length cw h
  have hn : (Spec.cooFile lb ob wgt cw c).length = cooSaveSize lb ob wgt cw c := by rw [← hl, cooBytes_eq]
  simp only [cooBytes, List.length_append, encLE_length, rawLE_length, h.x.1, h.y.1, weights_length cw h.w.1] at hl
  have hpos : 0 < cooSaveSize lb ob wgt cw c := by unfold cooSaveSize; omega
  have hr := reached_first (n := (Spec.cooFile lb ob wgt cw c).length)
    (parts := [cooMagic, encLE 1 lb, encLE 1 ob, encLE lb c.nrows, encLE lb c.ncols, encLE lb c.n, encLE ob c.m,
      rawArr (encLE lb) c.x, rawArr (encLE lb) c.y] ++ wBlock wgt cw c.m c.w) (by simp) (new := Spec.cooFile lb ob wgt cw c) (by
      rw [← cooBytes_eq, List.flatten_append, wBlock_flatten h.w.1]
      simp [cooBytes]) hj
  revert hr
  generalize (Spec.cooFile lb ob wgt cw c).take j ++ (blank (Spec.cooFile lb ob wgt cw c).length).drop j = s
  rw [hn]
  intro hr
  unfold saveCooO
  refine Obs.seen_bind (openO_any ..) (openO_seg (old := old) hpos).1 (fun f hf => ?_)
  revert s
  refine reach_w hf _ (by simp only [List.flatten_append, List.flatten_singleton, List.flatten_nil, List.length_append, encLE_length, rawLE_length,  List.length_nil]; omega) (fun f hf => ?_)
  refine reach_w hf _ (by simp only [List.flatten_append, List.flatten_singleton, List.flatten_nil, List.length_append, encLE_length, rawLE_length,  List.length_nil]; omega) (fun f hf => ?_)
  refine reach_w hf _ (by simp only [List.flatten_append, List.flatten_singleton, List.flatten_nil, List.length_append, encLE_length, rawLE_length,  List.length_nil]; omega) (fun f hf => ?_)
  refine reach_w hf _ (by simp only [List.flatten_append, List.flatten_singleton, List.flatten_nil, List.length_append, encLE_length, rawLE_length,  List.length_nil]; omega) (fun f hf => ?_)
  refine reach_w hf _ (by simp only [List.flatten_append, List.flatten_singleton, List.flatten_nil, List.length_append, encLE_length, rawLE_length,  List.length_nil]; omega) (fun f hf => ?_)
  refine reach_w hf _ (by simp only [List.flatten_append, List.flatten_singleton, List.flatten_nil, List.length_append, encLE_length, rawLE_length,  List.length_nil]; omega) (fun f hf => ?_)
  refine reach_w hf _ (by simp only [List.flatten_append, List.flatten_singleton, List.flatten_nil, List.length_append, encLE_length, rawLE_length,  List.length_nil]; omega) (fun f hf => ?_)
  refine reach_p hf hT _ (by rw [rawLE_length, h.x.1]) (by simp only [List.flatten_append, List.flatten_singleton, List.flatten_nil, List.length_append, encLE_length, rawLE_length,  List.length_nil]; omega) (fun f hf => ?_)
  refine reach_p hf hT _ (by rw [rawLE_length, h.y.1]) (by simp only [List.flatten_append, List.flatten_singleton, List.flatten_nil, List.length_append, encLE_length, rawLE_length, h.x.1, List.length_nil]; omega) (fun f hf => ?_)
  exact fun s hr => .inl (saveWeightsO_reached hf hT cw h.w.1 (by simp only [List.flatten_append, List.flatten_singleton, List.flatten_nil, List.length_append, encLE_length, rawLE_length, h.x.1, h.y.1, List.length_nil]; omega) s hr)

theorem Reached.append_left {n : Nat} {b : List (List Byte)} {s : List Byte} : ∀ {a done : List (List Byte)}, Reached n done (a ++ b) s →
    Reached n done a s ∨ Reached n (done ++ a) b s
  | [], done, h => .inr ((List.append_nil done).symm ▸ h)
  | x :: a, done, h => by
    rcases h with h | h
    · exact .inl (.inl h)
    · rcases Reached.append_left h with h | h
      · exact .inl (.inr h)
      · right; rw [List.append_assoc] at h; exact h

/-- The parts of a CSR that are written. -/
def csrPartsW (lb ob : Nat) (wgt : Bool) (cw : Codec W) (c : Csr W) : List (List Byte) :=
  [csrMagic, encLE 1 lb, encLE 1 ob, encLE lb c.n, encLE ob c.m, encLE lb c.nrows, encLE lb c.ncols, rawArr (encLE ob) c.offsets,
    rawArr (encLE lb) c.endpoints] ++ wBlock wgt cw c.m c.weights

theorem csrPartsW_flatten {lb ob : Nat} {wgt : Bool} (cw : Codec W) {c : Csr W} (h : Spec.FitsCsr lb ob wgt cw c) :
    (csrPartsW lb ob wgt cw c).flatten = Spec.csrFile lb ob wgt cw c := by
  rw [← csrBytes_eq, csrPartsW, List.flatten_append, wBlock_flatten h.weights.1]
  simp [csrBytes]

theorem saveCsrToO_reached {T lb ob : Nat} (hT : 0 < T) {wgt : Bool} (cw : Codec W) {c : Csr W} (h : Spec.FitsCsr lb ob wgt cw c)
    {f : WFile} {n : Nat} {done : List (List Byte)} (hf : Done f n done) (hs : done.flatten.length + csrSaveSize lb ob wgt cw c ≤ n) :
    ∀ s, Reached n done (csrPartsW lb ob wgt cw c) s → (saveCsrToO T lb ob wgt cw c f).seen s := by
  have hl := csrBytes_length cw h
  simp only [csrBytes, List.length_append, encLE_length, rawLE_length, h.offsets.1, h.endpoints.1, weights_length cw h.weights.1] at hl
  have hsucc := succL_eq h.room
  unfold saveCsrToO csrPartsW
  refine reach_w hf csrMagic (by omega) (fun f hf => ?_)
  refine reach_w hf _ (by simp only [List.flatten_append, List.flatten_singleton, List.flatten_nil, List.length_append, encLE_length, rawLE_length,  List.length_nil]; omega) (fun f hf => ?_)
  refine reach_w hf _ (by simp only [List.flatten_append, List.flatten_singleton, List.flatten_nil, List.length_append, encLE_length, rawLE_length,  List.length_nil]; omega) (fun f hf => ?_)
  refine reach_w hf _ (by simp only [List.flatten_append, List.flatten_singleton, List.flatten_nil, List.length_append, encLE_length, rawLE_length,  List.length_nil]; omega) (fun f hf => ?_)
  refine reach_w hf _ (by simp only [List.flatten_append, List.flatten_singleton, List.flatten_nil, List.length_append, encLE_length, rawLE_length,  List.length_nil]; omega) (fun f hf => ?_)
  refine reach_w hf _ (by simp only [List.flatten_append, List.flatten_singleton, List.flatten_nil, List.length_append, encLE_length, rawLE_length,  List.length_nil]; omega) (fun f hf => ?_)
  refine reach_w hf _ (by simp only [List.flatten_append, List.flatten_singleton, List.flatten_nil, List.length_append, encLE_length, rawLE_length,  List.length_nil]; omega) (fun f hf => ?_)
  refine reach_p hf hT _ (by rw [rawLE_length, h.offsets.1, hsucc]) (by rw [hsucc]; simp only [List.flatten_append, List.flatten_singleton, List.flatten_nil, List.length_append, encLE_length, rawLE_length,  List.length_nil]; omega) (fun f hf => ?_)
  refine reach_p hf hT _ (by rw [rawLE_length, h.endpoints.1]) (by simp only [List.flatten_append, List.flatten_singleton, List.flatten_nil, List.length_append, encLE_length, rawLE_length, h.offsets.1, List.length_nil]; omega) (fun f hf => ?_)
  exact fun s hr => saveWeightsO_reached hf hT cw h.weights.1 (by simp only [List.flatten_append, List.flatten_singleton, List.flatten_nil, List.length_append, encLE_length, rawLE_length, h.offsets.1, h.endpoints.1, List.length_nil]; omega) s hr

theorem saveCsrO_reach {old : List Byte} {T lb ob : Nat} (hT : 0 < T) {wgt : Bool} (cw : Codec W) {c : Csr W} (h : Spec.FitsCsr lb ob wgt cw c) {j : Nat}
    (hj : j ≤ (Spec.csrFile lb ob wgt cw c).length) :
    (saveCsrO old T lb ob wgt cw c).seen ((Spec.csrFile lb ob wgt cw c).take j ++ (blank (Spec.csrFile lb ob wgt cw c).length).drop j) := by
  have hn : (Spec.csrFile lb ob wgt cw c).length = csrSaveSize lb ob wgt cw c := by rw [← csrBytes_length cw h, csrBytes_eq]
  have hr := reached_first (n := (Spec.csrFile lb ob wgt cw c).length) (parts := csrPartsW lb ob wgt cw c) (by simp [csrPartsW]) (csrPartsW_flatten cw h) hj
  revert hr
  generalize (Spec.csrFile lb ob wgt cw c).take j ++ (blank (Spec.csrFile lb ob wgt cw c).length).drop j = s
  rw [hn]
  intro hr
  unfold saveCsrO
  refine Obs.seen_bind (openO_any ..) (openO_seg (old := old) (csrSaveSize_pos ..)).1 (fun f hf => ?_)
  exact .inl (saveCsrToO_reached hT cw h hf (by simp) s hr)

theorem saveCsrToO_any (T lb ob : Nat) (wgt : Bool) (cw : Codec W) (c : Csr W) (f : WFile) : (saveCsrToO T lb ob wgt cw c f).run.Any := by
  rw [saveCsrToO_run]
  unfold saveCsrTo
  repeat' first | exact R.Any.pure _ | exact saveWeights_any .. | refine R.Any.bind (R.Any.lift _) (fun _ => ?_) | refine R.Any.bind (parWrite_any ..) (fun _ => ?_)

theorem Done.congr {f : WFile} {n : Nat} {a b : List (List Byte)} (h : Done f n a) (e : a.flatten = b.flatten) : Done f n b :=
  ⟨h.pos, by rw [h.fp, e], by rw [h.bytes, stage_flatten e], by rw [← e]; exact h.room⟩

theorem saveDiGraphO_reach {old : List Byte} {T lb ob : Nat} (hT : 0 < T) {wgt : Bool} (cw : Codec W) {g : DiGraph W}
    (hi : Spec.FitsCsr lb ob wgt cw g.inG) (ho : Spec.FitsCsr lb ob wgt cw g.outG) {j : Nat} (hj : j ≤ (Spec.digraphFile lb ob wgt cw g).length) :
    (saveDiGraphO old T lb ob wgt cw g).seen ((Spec.digraphFile lb ob wgt cw g).take j ++ (blank (Spec.digraphFile lb ob wgt cw g).length).drop j) := by
  have h1 := csrBytes_length cw hi
  have h2 := csrBytes_length cw ho
  have h3 := csrPartsM_flatten cw hi
  have hp := csrSaveSize_pos lb ob wgt cw g.inG
  have hn : (Spec.digraphFile lb ob wgt cw g).length = digraphMagic.length + csrSaveSize lb ob wgt cw g.inG + csrSaveSize lb ob wgt cw g.outG := by
    rw [Spec.digraphFile, ← csrBytes_eq, ← csrBytes_eq, List.length_append, List.length_append, h1, h2]
    rfl
  have hr := reached_first (n := (Spec.digraphFile lb ob wgt cw g).length)
    (parts := digraphMagic :: (csrPartsW lb ob wgt cw g.inG ++ csrPartsW lb ob wgt cw g.outG)) (by simp) (new := Spec.digraphFile lb ob wgt cw g) (by
      rw [List.flatten_cons, List.flatten_append, csrPartsW_flatten cw hi, csrPartsW_flatten cw ho, Spec.digraphFile, List.append_assoc]
      rfl) hj
  revert hr
  generalize (Spec.digraphFile lb ob wgt cw g).take j ++ (blank (Spec.digraphFile lb ob wgt cw g).length).drop j = s
  rw [hn]
  intro hr
  unfold saveDiGraphO
  refine Obs.seen_bind (openO_any ..) (openO_seg (old := old) (by omega)).1 (fun f hf => ?_)
  revert s
  refine reach_w hf _ (by simp; omega) (fun f hf s hr => ?_)
  rcases hr.append_left with hr | hr
  · exact .inl (saveCsrToO_reached hT cw hi hf (by simp only [List.nil_append, List.flatten_singleton]; omega) s hr)
  · refine Obs.seen_bind (saveCsrToO_any ..) (saveCsrToO_seg hT cw hi hf (by simp)).1 (fun f hf => ?_)
    left
    refine saveCsrToO_reached hT cw ho (hf.congr (b := [] ++ [digraphMagic] ++ csrPartsW lb ob wgt cw g.inG) ?_) ?_ s hr
    · rw [List.flatten_append, List.flatten_append (L₁ := [] ++ [digraphMagic]), csrPartsM_eq, csrParts_flatten, csrPartsW_flatten cw hi]
    · rw [List.flatten_append, csrPartsW_flatten cw hi, ← csrBytes_eq, List.length_append, h1]
      simp

theorem saveTensorO_reach {old : List Byte} {T lb ob : Nat} (hT : 0 < T) {wgt : Bool} (cw : Codec W) {t : Tensor W} (h : Spec.FitsTensor lb ob wgt cw t)
    {j : Nat} (hj : j ≤ (Spec.tensorFile lb ob wgt cw t).length) :
    (saveTensorO old T lb ob wgt cw t).seen ((Spec.tensorFile lb ob wgt cw t).take j ++ (blank (Spec.tensorFile lb ob wgt cw t).length).drop j) := by
  have hl := tensorBytes_length cw h
  have hn : (Spec.tensorFile lb ob wgt cw t).length = tensorSaveSize lb ob wgt cw t := by rw [← hl, tensorBytes_eq]
  have hc : (rawArr (encLE lb) t.c).length = lb * t.order * t.m := by rw [rawLE_length, h.c.1, Nat.mul_assoc]
  simp only [tensorBytes, List.length_append, encLE_length, hc, weights_length cw h.w.1, wsize_length] at hl
  have hpos : 0 < tensorSaveSize lb ob wgt cw t := by unfold tensorSaveSize; omega
  have hr := reached_first (n := (Spec.tensorFile lb ob wgt cw t).length)
    (parts := [tensorMagic, encLE 1 lb, encLE 1 ob, if wgt then encLE 1 cw.size else [], encLE ob t.order, encLE ob t.m,
      rawArr (encLE lb) t.c] ++ wBlock wgt cw t.m t.w) (by simp) (new := Spec.tensorFile lb ob wgt cw t) (by
      rw [← tensorBytes_eq, List.flatten_append, wBlock_flatten h.w.1]
      simp [tensorBytes]) hj
  revert hr
  generalize (Spec.tensorFile lb ob wgt cw t).take j ++ (blank (Spec.tensorFile lb ob wgt cw t).length).drop j = s
  rw [hn]
  intro hr
  unfold saveTensorO
  refine Obs.seen_bind (openO_any ..) (openO_seg (old := old) hpos).1 (fun f hf => ?_)
  revert s
  refine reach_w hf _ (by simp only [List.flatten_append, List.flatten_singleton, List.flatten_nil, List.length_append, encLE_length, wsize_length, List.length_nil]; omega) (fun f hf => ?_)
  refine reach_w hf _ (by simp only [List.flatten_append, List.flatten_singleton, List.flatten_nil, List.length_append, encLE_length, wsize_length, List.length_nil]; omega) (fun f hf => ?_)
  refine reach_w hf _ (by simp only [List.flatten_append, List.flatten_singleton, List.flatten_nil, List.length_append, encLE_length, wsize_length, List.length_nil]; omega) (fun f hf => ?_)
  refine reach_w hf _ (by simp only [List.flatten_append, List.flatten_singleton, List.flatten_nil, List.length_append, encLE_length, wsize_length, List.length_nil]; omega) (fun f hf => ?_)
  refine reach_w hf _ (by simp only [List.flatten_append, List.flatten_singleton, List.flatten_nil, List.length_append, encLE_length, wsize_length, List.length_nil]; omega) (fun f hf => ?_)
  refine reach_w hf _ (by simp only [List.flatten_append, List.flatten_singleton, List.flatten_nil, List.length_append, encLE_length, wsize_length, List.length_nil]; omega) (fun f hf => ?_)
  refine reach_p hf hT _ hc (by simp only [List.flatten_append, List.flatten_singleton, List.flatten_nil, List.length_append, encLE_length, wsize_length, List.length_nil]; omega) (fun f hf => ?_)
  exact fun s hr => .inl (saveWeightsO_reached hf hT cw h.w.1 (by simp only [List.flatten_append, List.flatten_singleton, List.flatten_nil, List.length_append, encLE_length, wsize_length, hc, List.length_nil]; omega) s hr)

end Pigo
