import Verif.Model.FileRes

/-!
# C90: descriptors and mappings of files

`openP sys os fn mode maxSize` is the constructor of `File` in the process `os`, where the calls in `sys` fail, and `fopen` and `open`
fail as well when the process has `os.limit` descriptors open.
-/

namespace Pigo.Files

/-- The descriptors a constructor that throws `e` leaves open. -/
def Err.fds : Err → Nat
  | .seekSize | .setSize | .fdopen | .seekEnd | .invalidSize | .wrongSize | .mmap => 1
  | _ => 0

/-- The mappings a constructor that throws `e` leaves behind. -/
def Err.maps : Err → Nat
  | .fclose | .madvise => 1
  | _ => 0

/-- The calls that fail in the process `os` when those in `sys` do. -/
def Sys.within (sys : Sys) (os : Proc) : Sys :=
  { sys with fopen := sys.fopen || decide (os.limit ≤ os.fds), openFd := sys.openFd || decide (os.limit ≤ os.fds) }

theorem createP_run (sys : Sys) (os : Proc) (fn : String) (maxSize : Nat) :
    ((createP sys os fn maxSize).1, (createP sys os fn maxSize).2.fs) = create (sys.within os) os.fs fn maxSize ∧
    (∀ a, (createP sys os fn maxSize).1 = .ok a → (createP sys os fn maxSize).2.fds = os.fds ∧
      (createP sys os fn maxSize).2.limit = os.limit) := by
  unfold createP create Sys.within
  dsimp only
  by_cases h : sys.fopen = true ∨ os.limit ≤ os.fds
  · have h' : (sys.fopen || decide (os.limit ≤ os.fds)) = true := by simpa using h
    simp [h, h']
  · have h' : (sys.fopen || decide (os.limit ≤ os.fds)) = false := by simpa using h
    rw [if_neg h, h']
    cases sys.fseek <;> cases sys.fputc <;> cases sys.fclose <;> simp

theorem mapFileP_run (sys : Sys) (os : Proc) (fn : String) (mode : Mode) (maxSize : Nat) :
    (mapFileP sys os fn mode maxSize).1 = mapFile (sys.within os) os.fs fn mode maxSize ∧
    (mapFileP sys os fn mode maxSize).2.fs = os.fs := by
  unfold mapFileP mapFile Sys.within
  cases hc : os.fs fn with
  | none => simp
  | some c =>
    dsimp only
    by_cases h : sys.openFd = true ∨ os.limit ≤ os.fds
    · have h' : (sys.openFd || decide (os.limit ≤ os.fds)) = true := by simpa using h
      simp [h, h']
    · have h' : (sys.openFd || decide (os.limit ≤ os.fds)) = false := by simpa using h
      rw [if_neg h, h']
      simp only [Bool.false_eq_true, if_false]
      repeat' split
      all_goals simp

/-- C90: the constructor with the count of its resources is the constructor of C69: same object or exception, same files. -/
theorem C90_same (sys : Sys) (os : Proc) (fn : String) (mode : Mode) (maxSize : Nat) :
    ((openP sys os fn mode maxSize).1, (openP sys os fn mode maxSize).2.fs) =
      openFile (sys.within os) os.fs fn mode maxSize := by
  cases mode with
  | read =>
    unfold openP openFile
    dsimp only
    split
    · rfl
    · have h := mapFileP_run sys os fn .read maxSize
      exact Prod.ext h.1 h.2
  | write =>
    unfold openP openFile
    dsimp only
    split
    · rfl
    · obtain ⟨h1, h2⟩ := createP_run sys os fn maxSize
      rw [← h1]
      cases hc : createP sys os fn maxSize with
      | mk o os1 =>
        rw [hc] at h2
        cases o with
        | error e => rfl
        | ok a =>
          dsimp only at h2 ⊢
          obtain ⟨hf, hl⟩ := h2 a rfl
          have h := mapFileP_run sys os1 fn .write maxSize
          have hw : sys.within os1 = sys.within os := by simp [Sys.within, hf, hl]
          rw [hw] at h
          exact Prod.ext h.1 h.2

theorem createP_count (sys : Sys) (os : Proc) (fn : String) (maxSize : Nat) :
    match createP sys os fn maxSize with
    | (.ok _, os') => os'.fds = os.fds ∧ os'.maps = os.maps ∧ os'.limit = os.limit
    | (.error e, os') => os'.fds = os.fds + e.fds ∧ os'.maps = os.maps + e.maps ∧ os'.limit = os.limit := by
  unfold createP
  dsimp only
  by_cases h : sys.fopen = true ∨ os.limit ≤ os.fds
  · simp [h, Err.fds, Err.maps]
  · rw [if_neg h]
    cases sys.fseek <;> cases sys.fputc <;> cases sys.fclose <;> simp [Err.fds, Err.maps]

theorem mapFileP_count (sys : Sys) (os : Proc) (fn : String) (mode : Mode) (maxSize : Nat) :
    match mapFileP sys os fn mode maxSize with
    | (.ok _, os') => os'.fds = os.fds ∧ os'.maps = os.maps + 1 ∧ os'.limit = os.limit
    | (.error e, os') => os'.fds = os.fds + e.fds ∧ os'.maps = os.maps + e.maps ∧ os'.limit = os.limit := by
  unfold mapFileP
  cases hc : os.fs fn with
  | none => simp [Err.fds, Err.maps]
  | some c =>
    dsimp only
    by_cases h : sys.openFd = true ∨ os.limit ≤ os.fds
    · simp [h, Err.fds, Err.maps]
    · rw [if_neg h]
      by_cases h1 : sys.fdopen = true
      · simp [h1, Err.fds, Err.maps]
      by_cases h2 : sys.seekEnd = true
      · simp [h1, h2, Err.fds, Err.maps]
      by_cases h3 : sys.ftell = true
      · simp [h1, h2, h3, Err.fds, Err.maps]
      by_cases h4 : mode = .write ∧ c.length ≠ maxSize
      · simp [h1, h2, h3, h4, Err.fds, Err.maps]
      by_cases h5 : sys.mmap = true ∨ c.length = 0
      · simp only [h1, h2, h3, if_neg h4, if_pos h5]
        simp [Err.fds, Err.maps]
      by_cases h6 : sys.fclose2 = true
      · simp only [h1, h2, h3, if_neg h4, if_neg h5, h6]
        simp [Err.fds, Err.maps]
      by_cases h7 : sys.madvise = true
      · simp only [h1, h2, h3, if_neg h4, if_neg h5, h6, h7]
        simp [Err.fds, Err.maps]
      have hpos : ¬ (0 ≥ c.length) := by
        intro hh
        exact h5 (Or.inr (by omega))
      simp only [h1, h2, h3, if_neg h4, if_neg h5, h6, h7, seek, if_neg hpos]
      simp

/-- C90 (exact): after the construction of a `File` one more mapping exists and no descriptor is open that was not before; a
constructor that throws leaves what `Err.fds`, `Err.maps` say. -/
theorem C90_exact (sys : Sys) (os os' : Proc) (fn : String) (mode : Mode) (maxSize : Nat) (r : Except Err FileObj)
    (h : openP sys os fn mode maxSize = (r, os')) :
    os'.limit = os.limit ∧ match r with
    | .ok _ => os'.fds = os.fds ∧ os'.maps = os.maps + 1
    | .error e => os'.fds = os.fds + e.fds ∧ os'.maps = os.maps + e.maps := by
  cases mode with
  | read =>
    unfold openP at h
    dsimp only at h
    split at h
    · simp only [Prod.mk.injEq] at h
      obtain ⟨rfl, rfl⟩ := h
      exact ⟨rfl, rfl, rfl⟩
    · have hc := mapFileP_count sys os fn .read maxSize
      rw [h] at hc
      cases r with
      | ok f => exact ⟨hc.2.2, hc.1, hc.2.1⟩
      | error e => exact ⟨hc.2.2, hc.1, hc.2.1⟩
  | write =>
    unfold openP at h
    dsimp only at h
    split at h
    · simp only [Prod.mk.injEq] at h
      obtain ⟨rfl, rfl⟩ := h
      exact ⟨rfl, rfl, rfl⟩
    · have hc := createP_count sys os fn maxSize
      cases hcr : createP sys os fn maxSize with
      | mk o os1 =>
        rw [hcr] at hc h
        cases o with
        | error e =>
          simp only [Prod.mk.injEq] at h
          obtain ⟨rfl, rfl⟩ := h
          exact ⟨hc.2.2, hc.1, hc.2.1⟩
        | ok a =>
          dsimp only at hc h
          have hm := mapFileP_count sys os1 fn .write maxSize
          rw [h] at hm
          rw [hc.1, hc.2.1, hc.2.2] at hm
          cases r with
          | ok f => exact ⟨hm.2.2, hm.1, hm.2.1⟩
          | error e => exact ⟨hm.2.2, hm.1, hm.2.1⟩

/-- C90: a file that is opened, used and destroyed leaves the process as it was; so does one that cannot be opened because it does not
exist, may not be opened, or because the size argument is wrong. -/
theorem C90_released (u : Use) (os os' : Proc) (e : Option Err) (h : useP u os = (e, os'))
    (he : e = none ∨ e = some .maxSizeTooLow ∨ e = some .maxSizeOnlyWrite ∨ e = some .openWrite ∨ e = some .openRead ∨
      e = some .closeNew) : os'.fds = os.fds ∧ os'.maps = os.maps ∧ os'.limit = os.limit := by
  unfold useP at h
  cases ho : openP u.sys os u.fn u.mode u.maxSize with
  | mk r os1 =>
    have hx := C90_exact _ _ _ _ _ _ _ ho
    rw [ho] at h
    cases r with
    | error e' =>
      simp only [Prod.mk.injEq] at h
      obtain ⟨rfl, rfl⟩ := h
      dsimp only at hx
      rcases he with he | he | he | he | he | he
      · exact absurd he (by simp)
      all_goals
        simp only [Option.some.injEq] at he
        subst he
        exact ⟨hx.2.1, hx.2.2, hx.1⟩
    | ok f =>
      dsimp only at hx h
      simp only [Prod.mk.injEq] at h
      obtain ⟨-, rfl⟩ := h
      cases u.mode <;> exact ⟨hx.2.1, by simp [closeP, hx.2.2], hx.1⟩

/-- What a use leaves. -/
theorem useP_count (u : Use) (os : Proc) :
    (useP u os).2.fds = os.fds + ((useP u os).1.map Err.fds).getD 0 ∧
    (useP u os).2.maps = os.maps + ((useP u os).1.map Err.maps).getD 0 ∧ (useP u os).2.limit = os.limit := by
  unfold useP
  cases ho : openP u.sys os u.fn u.mode u.maxSize with
  | mk r os1 =>
    have hx := C90_exact _ _ _ _ _ _ _ ho
    cases r with
    | error e' => exact ⟨hx.2.1, hx.2.2, hx.1⟩
    | ok f =>
      dsimp only at hx ⊢
      cases u.mode <;> exact ⟨by simpa [closeP] using hx.2.1, by simp [closeP, hx.2.2], hx.1⟩

/-- C90: in every history the descriptors are those at the beginning and one for each open that failed at or after setting the size
of the new file or after `open` succeeded; the mappings likewise. -/
theorem C90_history (us : List Use) (os : Proc) :
    (usesP us os).2.fds = os.fds + ((usesP us os).1.map (fun e => (e.map Err.fds).getD 0)).sum ∧
    (usesP us os).2.maps = os.maps + ((usesP us os).1.map (fun e => (e.map Err.maps).getD 0)).sum := by
  induction us generalizing os with
  | nil => simp [usesP]
  | cons u us ih =>
    have h1 := useP_count u os
    have h2 := ih (useP u os).2
    simp only [usesP, List.map_cons, List.sum_cons]
    omega

/-- C90: a history of loads of files that exist and are not empty, and of saves of a positive size, where no system call fails for
reasons of its own: no exception, and the process is left with the descriptors and mappings it had. -/
theorem C90_fine (us : List Use) (os : Proc) (hl : os.fds < os.limit) (good : String → Prop)
    (hg : ∀ fn, good fn → ∃ c, os.fs fn = some c ∧ c ≠ [])
    (hu : ∀ u ∈ us, u.sys = .fine ∧ match u.mode with
      | .read => good u.fn ∧ u.maxSize = 0
      | .write => 0 < u.maxSize) :
    (∀ e ∈ (usesP us os).1, e = none) ∧ (usesP us os).2.fds = os.fds ∧ (usesP us os).2.maps = os.maps := by
  induction us generalizing os with
  | nil => simp [usesP]
  | cons u us ih =>
    obtain ⟨hs, hm⟩ := hu u (List.mem_cons_self ..)
    have key : (useP u os).1 = none ∧ ∀ fn, good fn → ∃ c, (useP u os).2.fs fn = some c ∧ c ≠ [] := by
      have hnl : ¬ os.limit ≤ os.fds := by omega
      unfold useP
      cases hmode : u.mode with
      | read =>
        rw [hmode] at hm
        obtain ⟨hgo, hz⟩ := hm
        obtain ⟨c, hc, hne⟩ := hg _ hgo
        have hlen : c.length ≠ 0 := by simp [hne]
        simp [openP, mapFileP, hz, hc, hs, Sys.fine, hnl, seek, hne, closeP]
        exact hg
      | write =>
        rw [hmode] at hm
        dsimp only at hm
        have hne : u.maxSize ≠ 0 := by omega
        have hlen : (List.replicate (u.maxSize - 1) (0 : UInt8) ++ [1]).length = u.maxSize := by simp; omega
        have hlen' : u.maxSize - 1 + 1 = u.maxSize := by omega
        simp [openP, createP, mapFileP, hne, hs, Sys.fine, hnl, seek, FS.put, closeP, hlen']
        intro fn hfn
        by_cases hf : fn = u.fn
        · refine ⟨_, by rw [if_pos hf], ?_⟩
          intro h0
          have := congrArg List.length h0
          simp at this
          omega
        · obtain ⟨c, hc, hne⟩ := hg fn hfn
          exact ⟨c, by simp only [if_neg hf]; exact hc, hne⟩
    have hcnt := useP_count u os
    rw [key.1] at hcnt
    simp only [Option.map_none, Option.getD_none, Nat.add_zero] at hcnt
    obtain ⟨i1, i2, i3⟩ := ih (useP u os).2 (by omega) key.2 (fun v hv => hu v (List.mem_cons_of_mem _ hv))
    simp only [usesP]
    refine ⟨?_, by omega, by omega⟩
    intro e he
    rcases List.mem_cons.mp he with rfl | he
    · exact key.1
    · exact i1 e he

/-- C90 violated: opening an empty file for reading throws with a descriptor left open, although no system call fails but `mmap` of
nothing; nobody can close it. -/
theorem C90_empty_violated (os : Proc) (fn : String) (h : os.fs fn = some []) (hl : os.fds < os.limit) :
    ∃ e os', openP .fine os fn .read 0 = (.error e, os') ∧ os'.fds = os.fds + 1 := by
  have hnl : ¬ os.limit ≤ os.fds := by omega
  exact ⟨.mmap, _, by simp [openP, mapFileP, h, Sys.fine, hnl]; rfl, rfl⟩

/-- Every use fails when no descriptor is left, and nothing changes. -/
theorem useP_full (u : Use) (os : Proc) (h : os.limit ≤ os.fds) : (useP u os).1 ≠ none ∧ (useP u os).2 = os := by
  unfold useP openP
  cases u.mode with
  | read =>
    dsimp only
    by_cases hz : u.maxSize > 0
    · simp [hz]
    · simp only [if_neg hz, mapFileP]
      cases os.fs u.fn with
      | none => simp
      | some c => simp [h]
  | write =>
    dsimp only
    by_cases hz : u.maxSize = 0
    · simp [hz]
    · simp [hz, createP, h]

/-- C90 violated: a program that loads an empty file `os.limit - os.fds` times (catching the exceptions) can open no file any more:
every later load and every later save throws. -/
theorem C90_exhausted_violated (os : Proc) (fn : String) (h : os.fs fn = some []) (hl : os.fds ≤ os.limit) (us : List Use) :
    ∀ e ∈ (usesP us (usesP (List.replicate (os.limit - os.fds) ⟨fn, .read, 0, .fine, fun _ => 0⟩) os).2).1, e ≠ none := by
  have full : ∀ (us : List Use) (os : Proc), os.limit ≤ os.fds → ∀ e ∈ (usesP us os).1, e ≠ none := by
    intro us
    induction us with
    | nil => simp [usesP]
    | cons u us ih =>
      intro os ho e he
      obtain ⟨h1, h2⟩ := useP_full u os ho
      simp only [usesP] at he
      rcases List.mem_cons.mp he with rfl | he
      · exact h1
      · exact ih _ (by rw [h2]; exact ho) e he
  have fill : ∀ (k : Nat) (os : Proc), os.fs fn = some [] → os.fds ≤ os.limit → k = os.limit - os.fds →
      (usesP (List.replicate k ⟨fn, .read, 0, .fine, fun _ => 0⟩) os).2.limit ≤
        (usesP (List.replicate k ⟨fn, .read, 0, .fine, fun _ => 0⟩) os).2.fds := by
    intro k
    induction k with
    | zero => intro os _ h1 h2; simp only [List.replicate_zero, usesP]; omega
    | succ k ih =>
      intro os h0 h1 h2
      simp only [List.replicate_succ, usesP]
      have hnl : ¬ os.limit ≤ os.fds := by omega
      have hu : useP ⟨fn, .read, 0, .fine, fun _ => 0⟩ os = (some .mmap, { os with fds := os.fds + 1 }) := by
        simp [useP, openP, mapFileP, h0, Sys.fine, hnl]
      rw [hu]
      refine ih _ h0 ?_ ?_
      · dsimp only; omega
      · dsimp only; omega
  exact full us _ (fill _ os h hl rfl)

/-- A process with three descriptors (of at most six) and the files `a` (two bytes) and `b` (empty). -/
def smallProc : Proc := ⟨fun f => if f = "a" then some [49, 10] else if f = "b" then some [] else none, 3, 6, 0⟩

/-- The hypotheses of `C90_fine` are met by a load and a save; those of the violations by the file `b`. -/
example : (usesP [⟨"a", .read, 0, .fine, fun _ => 0⟩, ⟨"c", .write, 5, .fine, fun _ => 7⟩] smallProc).1 = [none, none] := by
  refine List.ext_getElem (by simp [usesP]) ?_
  intro i h1 h2
  have := C90_fine [⟨"a", .read, 0, .fine, fun _ => 0⟩, ⟨"c", .write, 5, .fine, fun _ => 7⟩] smallProc (by decide) (· = "a")
    (by rintro _ rfl; exact ⟨_, rfl, by decide⟩) (by simp)
  have hm := this.1 _ (List.getElem_mem h1)
  rw [hm]
  rcases i with _ | _ | i
  · rfl
  · rfl
  · simp at h2; omega

example : smallProc.fs "b" = some [] := by decide

/-- After three loads of `b` the good file `a` cannot be loaded. -/
example : (useP ⟨"a", .read, 0, .fine, fun _ => 0⟩
    (usesP (List.replicate 3 ⟨"b", .read, 0, .fine, fun _ => 0⟩) smallProc).2).1 = some .openRead := by decide

end Pigo.Files
