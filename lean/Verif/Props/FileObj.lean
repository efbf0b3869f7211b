import Verif.Model.FileObj
import Mathlib.Tactic.ByContra

/-!
# Opening, seeking and moving files

C69: `openFile sys fs fn mode maxSize` is the constructor of `File` in a system where the calls in `sys` fail, with the files
`fs`; it returns the object or the exception, and the files afterwards. C65: `mrun ops` is a history of File objects;
`unmapped` logs the `munmap` calls.
-/

namespace Pigo.Files

/-! ## C69 -/

/-- C69: opening for writing with size 0 throws, and no file is touched. -/
theorem C69_write_size_zero (sys : Sys) (fs : FS) (fn : String) :
    openFile sys fs fn .write 0 = (.error .maxSizeTooLow, fs) := rfl

/-- C69: opening for reading with a size throws, and no file is touched. -/
theorem C69_read_with_size (sys : Sys) (fs : FS) (fn : String) (maxSize : Nat) (h : 0 < maxSize) :
    openFile sys fs fn .read maxSize = (.error .maxSizeOnlyWrite, fs) := by
  simp [openFile, h]

/-- C69: reading a file that does not exist, or an empty file, throws. -/
theorem C69_read_empty (sys : Sys) (fs : FS) (fn : String) (h : fs fn = none ∨ fs fn = some []) :
    ∃ e, openFile sys fs fn .read 0 = (.error e, fs) := by
  rcases h with h | h
  · exact ⟨.openRead, by simp [openFile, mapFile, h]⟩
  · simp only [openFile, mapFile, h, seek]
    refine ⟨if sys.openFd then .openRead else if sys.fdopen then .fdopen else if sys.seekEnd then .seekEnd else
      if sys.ftell then .invalidSize else .mmap, ?_⟩
    cases sys.openFd <;> cases sys.fdopen <;> cases sys.seekEnd <;> cases sys.ftell <;> simp

/-- C69: a file with contents is opened for reading: its bytes are mapped, read-only, the cursor is at the first one, and no
file changes. -/
theorem C69_read_ok (fs : FS) (fn : String) (c : List UInt8) (h : fs fn = some c) (hc : c ≠ []) :
    openFile .fine fs fn .read 0 = (.ok ⟨c, c.length, 0, fn, false⟩, fs) := by
  simp [openFile, mapFile, h, Sys.fine, seek, hc]

/-- C69: a file opened for writing with a positive size has exactly that size (zero bytes, and a last byte 1), replaces what
was there, is mapped writeable with the cursor at its first byte, and no other file changes. -/
theorem C69_write_ok (fs : FS) (fn : String) (maxSize : Nat) (h : 0 < maxSize) :
    ∃ c, c = List.replicate (maxSize - 1) 0 ++ [1] ∧ c.length = maxSize ∧
      openFile .fine fs fn .write maxSize = (.ok ⟨c, maxSize, 0, fn, true⟩, fun f => if f = fn then some c else fs f) := by
  have hl : (List.replicate (maxSize - 1) (0 : UInt8) ++ [1]).length = maxSize := by simp; omega
  refine ⟨_, rfl, hl, ?_⟩
  have hput : (fs.put fn (List.replicate (maxSize - 1) 0 ++ [1])) fn = some (List.replicate (maxSize - 1) 0 ++ [1]) := by
    simp [FS.put]
  have hm : mapFile .fine (fs.put fn (List.replicate (maxSize - 1) 0 ++ [1])) fn .write maxSize =
      .ok ⟨List.replicate (maxSize - 1) 0 ++ [1], maxSize, 0, fn, true⟩ := by
    rw [mapFile, hput]
    simp only [Sys.fine, hl, seek]
    rw [if_neg (by simp), if_neg (by simp), if_neg (by simp), if_neg (by simp), if_neg (by simp), if_neg (by simp; omega),
      if_neg (by simp), if_neg (by simp), if_neg (by omega)]
    simp
  have hc : create .fine fs fn maxSize = (.ok (), fs.put fn (List.replicate (maxSize - 1) 0 ++ [1])) := by
    simp [create, Sys.fine]
  simp only [openFile, hc, hm, if_neg (show ¬ maxSize = 0 by omega)]
  rfl

/-- C69: whatever system calls fail, the constructor throws, or the object is as described above: all bytes of the file are
mapped, the file is not empty, the cursor is at 0; and a failing call always throws. -/
theorem C69_open_sound (sys : Sys) (fs fs' : FS) (fn : String) (mode : Mode) (maxSize : Nat) (f : FileObj)
    (h : openFile sys fs fn mode maxSize = (.ok f, fs')) :
    fs' fn = some f.data ∧ f.size = f.data.length ∧ 0 < f.size ∧ f.fp = 0 ∧ f.fn = fn ∧ f.writeable = decide (mode = .write) ∧
      (mode = .write → f.size = maxSize ∧ sys = .fine) ∧ (mode = .read → fs' = fs ∧ maxSize = 0 ∧
        sys.openFd = false ∧ sys.fdopen = false ∧ sys.seekEnd = false ∧ sys.ftell = false ∧ sys.mmap = false ∧
        sys.fclose2 = false ∧ sys.madvise = false) ∧
      ∀ g, g ≠ fn → fs' g = fs g := by
  have key : ∀ (fs : FS), mapFile sys fs fn mode maxSize = .ok f → fs fn = some f.data ∧ f.size = f.data.length ∧ 0 < f.size ∧
      f.fp = 0 ∧ f.fn = fn ∧ f.writeable = decide (mode = .write) ∧ (mode = .write → f.size = maxSize) ∧
        sys.openFd = false ∧ sys.fdopen = false ∧ sys.seekEnd = false ∧ sys.ftell = false ∧ sys.mmap = false ∧
        sys.fclose2 = false ∧ sys.madvise = false := by
    intro fs hm
    rw [mapFile] at hm
    cases hc : fs fn with
    | none => rw [hc] at hm; simp at hm
    | some c =>
      rw [hc] at hm
      simp only at hm
      repeat' split at hm
      all_goals try (exact absurd hm (by simp))
      rw [seek] at hm
      split at hm
      · exact absurd hm (by simp)
      · rename_i h1 h2 h3 h4 h5 h6 h7 h8 h9
        simp only [Except.ok.injEq] at hm
        subst hm
        simp only at h9 ⊢
        refine ⟨trivial, trivial, by omega, trivial, trivial, trivial, ?_, ?_⟩
        · intro hw
          by_contra hne
          exact h5 ⟨hw, hne⟩
        · simp_all
  cases mode with
  | read =>
    simp only [openFile] at h
    split at h
    · simp at h
    · simp only [Prod.mk.injEq] at h
      obtain ⟨h1, rfl⟩ := h
      obtain ⟨a1, a2, a3, a4, a5, a6, _, a8⟩ := key _ h1
      exact ⟨a1, a2, a3, a4, a5, a6, by simp, fun _ => ⟨rfl, by omega, a8⟩, fun _ _ => rfl⟩
  | write =>
    simp only [openFile] at h
    split at h
    · simp at h
    · rw [create] at h
      cases hfo : sys.fopen <;> rw [hfo] at h <;> simp only [Bool.false_eq_true, if_false, if_true] at h
      · cases hfs : sys.fseek <;> rw [hfs] at h <;> simp only [Bool.false_eq_true, if_false, if_true] at h
        · cases hfp : sys.fputc <;> rw [hfp] at h <;> simp only [Bool.false_eq_true, if_false, if_true] at h
          · cases hfc : sys.fclose <;> rw [hfc] at h <;> simp only [Bool.false_eq_true, if_false, if_true] at h
            · simp only [Prod.mk.injEq] at h
              obtain ⟨h1, rfl⟩ := h
              obtain ⟨a1, a2, a3, a4, a5, a6, a7, b1, b2, b3, b4, b5, b6, b7⟩ := key _ h1
              refine ⟨a1, a2, a3, a4, a5, a6, fun _ => ⟨a7 rfl, ?_⟩, by simp, fun g hg => by simp [FS.put, hg]⟩
              cases sys
              simp_all [Sys.fine]
            · simp at h
          · simp at h
        · simp at h
      · simp at h

/-- C69: seeking at or past the end throws; otherwise the cursor is at the position, and nothing else changes. -/
theorem C69_seek (f : FileObj) (pos : Nat) :
    (f.size ≤ pos → seek f pos = .error .seekBeyond) ∧
    (pos < f.size → seek f pos = .ok ⟨f.data, f.size, pos, f.fn, f.writeable⟩) := by
  constructor
  · intro h; simp [seek, h]
  · intro h; simp [seek, h]

/-- A file with three bytes. -/
example : openFile .fine (fun f => if f = "g.el" then some [48, 32, 49] else none) "g.el" .read 0 =
    (.ok ⟨[48, 32, 49], 3, 0, "g.el", false⟩, fun f => if f = "g.el" then some [48, 32, 49] else none) := by
  exact C69_read_ok _ _ _ (by simp) (by simp)

/-! ## C65 -/

theorem mrun_append : ∀ (ops ops' : List MOp) (st : MState), mrun (ops ++ ops') st = mrun ops' (mrun ops st)
  | [], _, _ => rfl
  | op :: ops, ops', st => mrun_append ops ops' (mstep op st)

/-- C65 fails for move construction: whatever happened before, after `File j(std::move(i))` of an open file `i` both objects
own the mapping; when both are destroyed, it is unmapped twice (once more than it should). -/
theorem C65_move_ctor_violated (ops : List MOp) (i j d : Nat) (o : MObj) (hi : (mrun ops .init).objs i = some o)
    (hd : o.data = some d) (hj : (mrun ops .init).objs j = none) :
    (mrun (ops ++ [.moveCtor j i, .destroy j, .destroy i]) .init).unmapped = d :: d :: (mrun ops .init).unmapped := by
  rw [mrun_append]
  generalize mrun ops .init = st at hi hj
  have hij : i ≠ j := by rintro rfl; simp [hi] at hj
  simp only [mrun, mstep, hj, hi, MState.put, hij, if_true, if_false, MState.unmap, hd]

/-- C65 fails for move construction: the new object has neither the position nor the name: its cursor is indeterminate, its
name empty, for every file moved from. -/
theorem C65_move_ctor_loses_violated (ops : List MOp) (i j : Nat) (o : MObj) (hi : (mrun ops .init).objs i = some o)
    (hj : (mrun ops .init).objs j = none) :
    ∃ n, (mrun (ops ++ [.moveCtor j i]) .init).objs j = some n ∧ n.fp = none ∧ n.fn = "" := by
  rw [mrun_append]
  simp only [mrun, mstep, hj, hi, MState.put, if_true]
  exact ⟨_, rfl, rfl, rfl⟩

/-- C65 fails for move assignment: the object assigned to keeps its own old name and its old cursor — which, if it pointed
into the object's mapping, is now a pointer into unmapped memory — instead of the ones of the file moved from. -/
theorem C65_move_assign_cursor_violated (ops : List MOp) (i j d pos : Nat) (o o' : MObj) (hij : i ≠ j)
    (hi : (mrun ops .init).objs i = some o) (hj : (mrun ops .init).objs j = some o') (hd : o.data = some d)
    (hfp : o.fp = some (d, pos)) :
    ∃ n, (mrun (ops ++ [.moveAssign i j]) .init).objs i = some n ∧ n.fp = some (d, pos) ∧ n.fn = o.fn ∧
      d ∈ (mrun (ops ++ [.moveAssign i j]) .init).unmapped := by
  rw [mrun_append]
  generalize mrun ops .init = st at hi hj
  simp only [mrun, mstep, hj, hi, if_neg hij]
  refine ⟨{ o with data := o'.data, size := o'.size }, ?_, hfp, rfl, ?_⟩
  · simp [MState.put, hij]
  · simp [MState.put, MState.unmap, hd]

/-- The hypotheses hold for two open files. -/
example : let st := mrun [.openNew 0 "a" 5, .openNew 1 "b" 7, .seekTo 1 3, .seekTo 0 4] .init
    st.objs 0 = some ⟨some 0, 5, some (0, 4), "a"⟩ ∧ st.objs 1 = some ⟨some 1, 7, some (1, 3), "b"⟩ ∧ st.objs 2 = none := by
  decide

/-- Ownership of the mappings in a history without move constructions. -/
structure MInv (st : MState) : Prop where
  own : ∀ i o d, st.objs i = some o → o.data = some d → d < st.next ∧ d ∉ st.unmapped
  unique : ∀ i j o o' d, st.objs i = some o → st.objs j = some o' → o.data = some d → o'.data = some d → i = j
  once : st.unmapped.Nodup
  gone : ∀ d, d < st.next → d ∈ st.unmapped ∨ ∃ i o, st.objs i = some o ∧ o.data = some d
  old : ∀ d ∈ st.unmapped, d < st.next

theorem MInv.init : MInv .init :=
  ⟨fun _ _ _ h => by simp [MState.init] at h, fun _ _ _ _ _ h => by simp [MState.init] at h, by simp [MState.init],
    fun _ h => by simp [MState.init] at h, fun _ h => by simp [MState.init] at h⟩

def MOp.isMoveCtor : MOp → Bool
  | .moveCtor _ _ => true
  | _ => false

theorem mstep_inv (op : MOp) (hop : op.isMoveCtor = false) (st : MState) (I : MInv st) : MInv (mstep op st) := by
  cases op with
  | moveCtor i j => simp [MOp.isMoveCtor] at hop
  | openNew i fn size =>
    simp only [mstep]
    cases hi : st.objs i with
    | some o => exact I
    | none =>
      simp only
      refine ⟨?_, ?_, I.once, ?_, ?_⟩
      · intro k o d hk hd
        simp only [MState.put] at hk ⊢
        by_cases hki : k = i
        · rw [if_pos hki] at hk
          obtain rfl := Option.some.inj hk
          simp only [Option.some.injEq] at hd
          subst hd
          exact ⟨by omega, fun hc => by have := I.old _ hc; omega⟩
        · rw [if_neg hki] at hk
          have := I.own k o d hk hd
          exact ⟨by omega, this.2⟩
      · intro a b oa ob d ha hb hda hdb
        simp only [MState.put] at ha hb
        by_cases hai : a = i
        · by_cases hbi : b = i
          · omega
          · rw [if_pos hai] at ha
            rw [if_neg hbi] at hb
            obtain rfl := Option.some.inj ha
            simp only [Option.some.injEq] at hda
            have := I.own b ob d hb hdb
            omega
        · rw [if_neg hai] at ha
          by_cases hbi : b = i
          · rw [if_pos hbi] at hb
            obtain rfl := Option.some.inj hb
            simp only [Option.some.injEq] at hdb
            have := I.own a oa d ha hda
            omega
          · rw [if_neg hbi] at hb
            exact I.unique a b oa ob d ha hb hda hdb
      · intro d hd
        simp only [MState.put] at hd ⊢
        by_cases hdn : d = st.next
        · exact .inr ⟨i, _, if_pos rfl, by simp [hdn]⟩
        · rcases I.gone d (by omega) with h | ⟨k, o, hk, hko⟩
          · exact .inl h
          · exact .inr ⟨k, o, by rw [if_neg (by rintro rfl; simp [hi] at hk)]; exact hk, hko⟩
      · intro d hd
        have := I.old d hd
        simp only; omega
  | seekTo i pos =>
    simp only [mstep]
    cases hi : st.objs i with
    | none => exact I
    | some o =>
      simp only
      cases hd : o.data with
      | none => exact I
      | some d0 =>
        simp only
        split
        · exact I
        · have hobj : ∀ k o', (st.put i (some ⟨some d0, o.size, some (d0, pos), o.fn⟩)).objs k = some o' →
              ∃ o'', st.objs k = some o'' ∧ o''.data = o'.data := by
            intro k o' hk
            simp only [MState.put] at hk
            by_cases hki : k = i
            · rw [if_pos hki] at hk
              obtain rfl := Option.some.inj hk
              exact ⟨o, by rw [hki]; exact hi, hd⟩
            · rw [if_neg hki] at hk; exact ⟨o', hk, rfl⟩
          refine ⟨?_, ?_, I.once, ?_, I.old⟩
          · intro k o' d hk hd'
            obtain ⟨o'', h1, h2⟩ := hobj k o' hk
            exact I.own k o'' d h1 (h2.trans hd')
          · intro a b oa ob d ha hb hda hdb
            obtain ⟨oa', h1, h2⟩ := hobj a oa ha
            obtain ⟨ob', h3, h4⟩ := hobj b ob hb
            exact I.unique a b oa' ob' d h1 h3 (h2.trans hda) (h4.trans hdb)
          · intro d hd'
            rcases I.gone d hd' with h | ⟨k, o', hk, hko⟩
            · exact .inl h
            · by_cases hki : k = i
              · subst hki
                obtain rfl := Option.some.inj (hi.symm.trans hk)
                exact .inr ⟨k, _, if_pos rfl, by rw [← hko, hd]⟩
              · exact .inr ⟨k, o', by simp only [MState.put]; rw [if_neg hki]; exact hk, hko⟩
  | moveAssign i j =>
    simp only [mstep]
    cases hi : st.objs i with
    | none => exact I
    | some o =>
      cases hj : st.objs j with
      | none => exact I
      | some o' =>
        simp only
        split
        · exact I
        · rename_i hij
          have hnext : (((st.unmap o.data).put i (some { o with data := o'.data, size := o'.size })).put j (some { o' with data := none })).next
              = st.next := by cases o.data <;> rfl
          have hun : (((st.unmap o.data).put i (some { o with data := o'.data, size := o'.size })).put j (some { o' with data := none })).unmapped
              = (match o.data with | some d => d :: st.unmapped | none => st.unmapped) := by cases o.data <;> rfl
          have hobj : ∀ k, (((st.unmap o.data).put i (some { o with data := o'.data, size := o'.size })).put j (some { o' with data := none })).objs k
              = if k = j then some { o' with data := none } else if k = i then some { o with data := o'.data, size := o'.size } else st.objs k := by
            intro k; cases o.data <;> rfl
          generalize (((st.unmap o.data).put i (some { o with data := o'.data, size := o'.size })).put j (some { o' with data := none })) = st' at *
          -- the owner of each mapping of the new state owned it before, at `i` if it was `j`
          have hown : ∀ k p d, st'.objs k = some p → p.data = some d →
              k ≠ j ∧ ∃ p', st.objs (if k = i then j else k) = some p' ∧ p'.data = some d := by
            intro k p d hk hd
            rw [hobj] at hk
            by_cases hkj : k = j
            · rw [if_pos hkj] at hk
              obtain rfl := Option.some.inj hk
              simp at hd
            · rw [if_neg hkj] at hk
              by_cases hki : k = i
              · rw [if_pos hki] at hk ⊢
                obtain rfl := Option.some.inj hk
                exact ⟨hkj, o', hj, hd⟩
              · rw [if_neg hki] at hk ⊢
                exact ⟨hkj, p, hk, hd⟩
          have hnot : ∀ k p d, st'.objs k = some p → p.data = some d → o.data ≠ some d := by
            intro k p d hk hd hod
            obtain ⟨hkj, p', hp, hpd⟩ := hown k p d hk hd
            have := I.unique _ i p' o d hp hi hpd hod
            split at this
            · exact hij this.symm
            · rename_i hne; exact hne this
          refine ⟨?_, ?_, ?_, ?_, ?_⟩
          · intro k p d hk hd
            obtain ⟨hkj, p', hp, hpd⟩ := hown k p d hk hd
            have h1 := I.own _ p' d hp hpd
            have h2 := hnot k p d hk hd
            rw [hnext, hun]
            refine ⟨h1.1, ?_⟩
            cases hod : o.data with
            | none => exact h1.2
            | some d' =>
              simp only [List.mem_cons, not_or]
              exact ⟨by rintro rfl; exact h2 hod, h1.2⟩
          · intro a b oa ob d ha hb hda hdb
            obtain ⟨haj, pa, hpa, hpad⟩ := hown a oa d ha hda
            obtain ⟨hbj, pb, hpb, hpbd⟩ := hown b ob d hb hdb
            have := I.unique _ _ pa pb d hpa hpb hpad hpbd
            by_cases hai : a = i <;> by_cases hbi : b = i
            · omega
            · rw [if_pos hai, if_neg hbi] at this; omega
            · rw [if_neg hai, if_pos hbi] at this; omega
            · rw [if_neg hai, if_neg hbi] at this; exact this
          · rw [hun]
            cases hod : o.data with
            | none => exact I.once
            | some d => exact List.nodup_cons.mpr ⟨(I.own i o d hi hod).2, I.once⟩
          · intro d hd
            rw [hnext] at hd
            rw [hun]
            rcases I.gone d hd with h | ⟨k, p, hk, hpd⟩
            · left; cases o.data with
              | none => exact h
              | some _ => simp [h]
            · by_cases hki : k = i
              · subst hki
                obtain rfl := Option.some.inj (hi.symm.trans hk)
                left; rw [hpd]; simp
              · by_cases hkj : k = j
                · subst hkj
                  obtain rfl := Option.some.inj (hj.symm.trans hk)
                  exact .inr ⟨i, { o with data := o'.data, size := o'.size }, by rw [hobj, if_neg hij, if_pos rfl], hpd⟩
                · exact .inr ⟨k, p, by rw [hobj, if_neg hkj, if_neg hki]; exact hk, hpd⟩
          · intro d hd
            rw [hnext]
            rw [hun] at hd
            cases hod : o.data with
            | none => rw [hod] at hd; exact I.old d hd
            | some d' =>
              rw [hod] at hd
              rcases List.mem_cons.mp hd with rfl | h
              · exact (I.own i o _ hi hod).1
              · exact I.old d h
  | destroy i =>
    simp only [mstep]
    cases hi : st.objs i with
    | none => exact I
    | some o =>
      simp only
      have hnext : ((st.unmap o.data).put i none).next = st.next := by cases o.data <;> rfl
      have hun : ((st.unmap o.data).put i none).unmapped
          = (match o.data with | some d => d :: st.unmapped | none => st.unmapped) := by cases o.data <;> rfl
      have hobj : ∀ k, ((st.unmap o.data).put i none).objs k = if k = i then none else st.objs k := by
        intro k; cases o.data <;> rfl
      generalize (st.unmap o.data).put i none = st' at *
      have hown : ∀ k p, st'.objs k = some p → k ≠ i ∧ st.objs k = some p := by
        intro k p hk
        rw [hobj] at hk
        split at hk
        · simp at hk
        · rename_i hne; exact ⟨hne, hk⟩
      refine ⟨?_, ?_, ?_, ?_, ?_⟩
      · intro k p d hk hd
        obtain ⟨hki, hk'⟩ := hown k p hk
        have h1 := I.own k p d hk' hd
        rw [hnext, hun]
        refine ⟨h1.1, ?_⟩
        cases hod : o.data with
        | none => exact h1.2
        | some d' =>
          simp only [List.mem_cons, not_or]
          exact ⟨by rintro rfl; exact hki (I.unique k i p o _ hk' hi hd hod), h1.2⟩
      · intro a b oa ob d ha hb
        exact I.unique a b oa ob d (hown a oa ha).2 (hown b ob hb).2
      · rw [hun]
        cases hod : o.data with
        | none => exact I.once
        | some d => exact List.nodup_cons.mpr ⟨(I.own i o d hi hod).2, I.once⟩
      · intro d hd
        rw [hnext] at hd
        rw [hun]
        rcases I.gone d hd with h | ⟨k, p, hk, hpd⟩
        · left; cases o.data with
          | none => exact h
          | some _ => simp [h]
        · by_cases hki : k = i
          · subst hki
            obtain rfl := Option.some.inj (hi.symm.trans hk)
            left; rw [hpd]; simp
          · exact .inr ⟨k, p, by rw [hobj, if_neg hki]; exact hk, hpd⟩
      · intro d hd
        rw [hnext]
        rw [hun] at hd
        cases hod : o.data with
        | none => rw [hod] at hd; exact I.old d hd
        | some d' =>
          rw [hod] at hd
          rcases List.mem_cons.mp hd with rfl | h
          · exact (I.own i o _ hi hod).1
          · exact I.old d h

theorem mrun_inv : ∀ (ops : List MOp) (st : MState), (∀ op ∈ ops, op.isMoveCtor = false) → MInv st → MInv (mrun ops st)
  | [], _, _, I => I
  | op :: ops, st, h, I => mrun_inv ops _ (fun o ho => h o (by simp [ho])) (mstep_inv op (h op (by simp)) st I)

/-- C65, the part that holds: in every history of opened, sought, move-assigned (also self-assigned) and destroyed files, i.e.
without move constructions, no mapping is unmapped twice, and each mapping made is either unmapped or owned by exactly one
object. In particular, after all objects are destroyed, every mapping was unmapped exactly once. -/
theorem C65_move_assign_partial (ops : List MOp) (h : ∀ op ∈ ops, op.isMoveCtor = false) :
    let st := mrun ops .init
    (∀ d, st.unmapped.count d ≤ 1) ∧
    (∀ i j o o' d, st.objs i = some o → st.objs j = some o' → o.data = some d → o'.data = some d → i = j ∧ d ∉ st.unmapped) ∧
    (∀ d, d < st.next → d ∈ st.unmapped ∨ ∃ i o, st.objs i = some o ∧ o.data = some d) ∧
    ((∀ i, st.objs i = none) → ∀ d, d < st.next → st.unmapped.count d = 1) := by
  have I := mrun_inv ops .init h .init
  refine ⟨fun d => List.nodup_iff_count.mp I.once d, ?_, I.gone, ?_⟩
  · intro i j o o' d hi hj hd hd'
    exact ⟨I.unique i j o o' d hi hj hd hd', (I.own i o d hi hd).2⟩
  · intro hall d hd
    rcases I.gone d hd with h | ⟨i, o, hi, _⟩
    · exact Nat.le_antisymm (List.nodup_iff_count.mp I.once d) (List.one_le_count_iff.mpr h)
    · rw [hall i] at hi; simp at hi

/-- C65: the mapping moves with a move assignment: the object assigned to maps what the other one mapped, the other one maps
nothing, and the mapping it had before is unmapped at once. -/
theorem C65_move_assign_data_partial (ops : List MOp) (i j : Nat) (o o' : MObj) (hij : i ≠ j)
    (hi : (mrun ops .init).objs i = some o) (hj : (mrun ops .init).objs j = some o') :
    ∃ n n', (mrun (ops ++ [.moveAssign i j]) .init).objs i = some n ∧ (mrun (ops ++ [.moveAssign i j]) .init).objs j = some n' ∧
      n.data = o'.data ∧ n.size = o'.size ∧ n'.data = none ∧ ∀ d, o.data = some d → d ∈ (mrun (ops ++ [.moveAssign i j]) .init).unmapped := by
  rw [mrun_append]
  generalize mrun ops .init = st at hi hj
  simp only [mrun, mstep, hj, hi, if_neg hij]
  refine ⟨{ o with data := o'.data, size := o'.size }, { o' with data := none }, ?_, ?_, rfl, rfl, rfl, ?_⟩
  · simp [MState.put, hij]
  · simp [MState.put]
  · intro d hd; simp [MState.put, MState.unmap, hd]

example : ∀ op ∈ [MOp.openNew 0 "a" 5, .openNew 1 "b" 7, .moveAssign 0 1, .moveAssign 0 0, .destroy 1, .destroy 0],
    op.isMoveCtor = false := by decide

/-- The histories in which files of at least one byte are opened, sought and destroyed, but not moved. -/
def MOp.still : MOp → Bool
  | .openNew _ _ size => decide (0 < size)
  | .seekTo _ _ => true
  | .destroy _ => true
  | _ => false

/-- Every object maps something, and its cursor is at a byte of that mapping. -/
def CursorIn (st : MState) : Prop := ∀ i o, st.objs i = some o → ∃ d p, o.data = some d ∧ o.fp = some (d, p) ∧ p < o.size

theorem mstep_cursor (op : MOp) (hop : op.still = true) (st : MState) (I : CursorIn st) : CursorIn (mstep op st) := by
  have hput : ∀ (st' : MState) (i : Nat) (q : MObj), st'.objs = st.objs →
      (∃ d p, q.data = some d ∧ q.fp = some (d, p) ∧ p < q.size) → CursorIn (st'.put i (some q)) := by
    intro st' i q hst hq k o hk
    simp only [MState.put] at hk
    split at hk
    · obtain rfl := Option.some.inj hk; exact hq
    · rw [hst] at hk; exact I k o hk
  cases op with
  | moveCtor i j => simp [MOp.still] at hop
  | moveAssign i j => simp [MOp.still] at hop
  | openNew i fn size =>
    simp only [MOp.still, decide_eq_true_eq] at hop
    simp only [mstep]
    cases hi : st.objs i with
    | some o => exact I
    | none => exact hput st i _ rfl ⟨st.next, 0, rfl, rfl, hop⟩
  | seekTo i pos =>
    simp only [mstep]
    cases hi : st.objs i with
    | none => exact I
    | some o =>
      simp only
      cases hd : o.data with
      | none => exact I
      | some d =>
        simp only
        split
        · exact I
        · exact hput st i _ rfl ⟨d, pos, rfl, rfl, by simp only; omega⟩
  | destroy i =>
    simp only [mstep]
    cases hi : st.objs i with
    | none => exact I
    | some o =>
      intro k o' hk
      have h : ((st.unmap o.data).put i none).objs k = if k = i then none else st.objs k := by cases o.data <;> rfl
      simp only at hk
      rw [h] at hk
      split at hk
      · cases hk
      · exact I k o' hk

/-- C65: in every history without moves, whatever positions were sought, the cursor of every file lies in its own mapping,
strictly before the end. -/
theorem C65_cursor_inside (ops : List MOp) (h : ∀ op ∈ ops, op.still = true) (i : Nat) (o : MObj)
    (hi : (mrun ops .init).objs i = some o) : ∃ d p, o.data = some d ∧ o.fp = some (d, p) ∧ p < o.size := by
  have key : ∀ (ops : List MOp) (st : MState), (∀ op ∈ ops, op.still = true) → CursorIn st → CursorIn (mrun ops st) := by
    intro ops
    induction ops with
    | nil => intro st _ I; exact I
    | cons op ops ih => intro st h I; exact ih _ (fun o ho => h o (by simp [ho])) (mstep_cursor op (h op (by simp)) st I)
  exact key ops .init h (fun i o h => by simp [MState.init] at h) i o hi

example : ∀ op ∈ [MOp.openNew 0 "a" 5, .seekTo 0 4, .seekTo 0 5, .openNew 1 "b" 7, .destroy 1], op.still = true := by decide

end Pigo.Files
