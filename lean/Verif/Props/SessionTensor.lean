import Verif.Spec.SessionTensor
import Verif.Props.SessionLoad
import Verif.Props.Tensor
import Verif.Props.Graph
import Verif.Props.Total

/-!
# C101: programs over tensors

Copying, saving and loading, writing and loading a tensor, any number of times in any order, gives the tensor back.
-/

namespace Pigo.Session

variable {W : Type}

/-- The weight types of tensors: which weights they can hold, save and write.  Floating point weights must be written as numbers without
exponent that are read back. -/
inductive TWeights : {W : Type} → Types W → (Nat → List Byte → Option (List Nat × W)) → (W → Prop) → Prop
  | none (E : Types Unit) (hwk : E.wk = wNone) (hwt : E.wt = wtNone) : TWeights E Pigo.Spec.tensorEntry0 (fun _ => True)
  | unsigned (E : Types Nat) (ww : Nat) (hwk : E.wk = wUint ww) (hwt : E.wt = wtUint) (hcw : ∀ w, w < 2 ^ ww → E.cw.ok w) :
    TWeights E (Pigo.Spec.tensorEntryW Pigo.Spec.parseUnsigned) (fun w => w < 2 ^ ww)
  | signed (E : Types Int) (ww : Nat) (hwk : E.wk = wSint ww) (hwt : E.wt = wtInt ww) (hcw : ∀ w : Int, w.natAbs < 2 ^ (ww - 1) → E.cw.ok w) :
    TWeights E (Pigo.Spec.tensorEntryW Pigo.Spec.parseSigned) (fun w => w.natAbs < 2 ^ (ww - 1))
  | float {V : Type} (E : Types V) (ops : FpOps V) (txt : V → List Byte) (hwk : E.wk = wFp ops) (hwt : E.wt = wtFloat txt) :
    TWeights E (Pigo.Spec.tensorEntryW (fun t => (Pigo.Spec.parseLit t).map (evalLit ops)))
      (fun w => E.cw.ok w ∧ Word (txt w) ∧ Pigo.Spec.plainNumber (txt w) ∧ (Pigo.Spec.parseLit (txt w)).map (evalLit ops) = some w)

variable {E : Types W} {entry : Nat → List Byte → Option (List Nat × W)} {ok : W → Prop}

theorem TWeights.cw (h : TWeights E entry ok) : E.wk.wgt = true → ∀ w, ok w → E.cw.ok w := by
  cases h with
  | none _ hwk _ => exact fun g => by rw [hwk] at g; cases g
  | unsigned _ ww hwk _ hcw => exact fun _ => hcw
  | signed _ ww hwk _ hcw => exact fun _ => hcw
  | float _ ops _ hwk _ => exact fun _ _ hv => hv.1

/-! ## the tensor and its entries -/

theorem tensorIs_holds {wgt : Bool} {t : Tensor W} {k : Nat} {es : List (List Nat × W)} (h : Spec.TensorIs wgt t k es) : HoldsT t wgt es :=
  ⟨h.m, fun e he => by rw [h.order]; exact h.len e he, h.c, fun hw => by rw [h.w, if_pos hw]⟩

theorem tensorIs_unique {wgt : Bool} {t t' : Tensor W} {k : Nat} {es : List (List Nat × W)} (h : Spec.TensorIs wgt t k es)
    (h' : Spec.TensorIs wgt t' k es) : t' = t := by
  obtain ⟨c, w, o, m⟩ := t
  obtain ⟨c', w', o', m'⟩ := t'
  have e1 := h.order.trans h'.order.symm
  have e2 := h.m.trans h'.m.symm
  have e3 := h.c.trans h'.c.symm
  have e4 := h.w.trans h'.w.symm
  simp only at e1 e2 e3 e4
  rw [e1, e2, e3, e4]

theorem tensorIs_of {wgt : Bool} {t : Tensor W} {k : Nat} {es : List (List Nat × W)} (h : HoldsT t wgt es) (ho : t.order = k)
    (hw : wgt = false → t.w = []) : Spec.TensorIs wgt t k es := by
  refine ⟨ho, h.m, fun e he => by rw [h.order e he, ho], h.c, ?_⟩
  cases wgt with
  | true => exact h.w rfl
  | false => exact hw rfl

theorem flat_len {k : Nat} : ∀ {es : List (List Nat × W)}, (∀ e ∈ es, e.1.length = k) → (es.flatMap (fun e => e.1)).length = k * es.length
  | [], _ => rfl
  | e :: es, h => by
    rw [List.flatMap_cons, List.length_append, h e List.mem_cons_self, flat_len (fun x hx => h x (List.mem_cons_of_mem _ hx)), List.length_cons,
      Nat.mul_succ]
    omega

theorem pow8 (n : Nat) : (256 : Nat) ^ n = 2 ^ (8 * n) := by rw [show (256 : Nat) = 2 ^ 8 from rfl, ← Nat.pow_mul]

theorem tensor_fits {p : List (Nat × TOp)} {k : Nat} {es : List (List Nat × W)} {t : Tensor W} (hW : TWeights E entry ok)
    (hr : Spec.TReady E ok p k es) (h : Spec.TensorIs E.wk.wgt t k es) : Pigo.Spec.FitsTensor E.lb E.ob E.wk.wgt E.cw t where
  c := by
    rw [h.c, h.order, h.m]
    refine ⟨flat_len h.len, fun v hv => ?_⟩
    obtain ⟨e, he, hv⟩ := List.mem_flatMap.mp hv
    rw [pow8]
    exact hr.labels e he v hv
  w := by
    rw [h.w, h.m]
    cases hw : E.wk.wgt with
    | false => exact ⟨rfl, fun v hv => by cases hv⟩
    | true =>
      rw [if_pos rfl, if_pos rfl]
      refine ⟨List.length_map _, fun v hv => ?_⟩
      obtain ⟨e, he, rfl⟩ := List.mem_map.mp hv
      exact hW.cw hw _ (hr.weights hw e he)
  order := by
    have := hr.order
    rw [pow8, h.order]
    omega
  m := by rw [pow8, h.m]; exact hr.m
  all := .inr (by rw [pow8, h.order, h.m]; exact hr.size)

/-! ## one operation -/

/-- Without weights nothing is stored in `w_`. -/
theorem stepT_w {a : TAct W} {s s' : TMem W} (h : stepT a s = .ok s') (hs : s.w = []) : s'.w = [] := by
  cases a with
  | setC i v =>
    unfold stepT at h
    dsimp only at h
    cases hc : store s.c i v with
    | error e => rw [hc] at h; cases h
    | ok c =>
      rw [hc] at h
      cases h
      exact hs
  | setW i v =>
    unfold stepT at h
    dsimp only at h
    rw [hs] at h
    cases h

theorem runActs_w : ∀ {l : List (TAct W)} {s s' : TMem W}, runActs stepT l s = .ok s' → s.w = [] → s'.w = []
  | [], s, s', h, hs => by cases h; exact hs
  | a :: l, s, s', h, hs => by
    rw [runActs] at h
    cases ha : stepT a s with
    | error e => rw [ha] at h; cases h
    | ok s1 =>
      rw [ha] at h
      exact runActs_w (l := l) h (stepT_w ha hs)

theorem readTensorEl_w {μ : Mapping} {lw ow : Nat} {wk : WKind W} (hw : wk.wgt = false) {T : Nat} {r : Reader} {t : Tensor W}
    (h : (readTensorEl μ lw ow wk T r).Out (.ok t)) : t.w = [] := by
  unfold readTensorEl at h
  obtain ⟨o1, h1, h⟩ := h
  cases o1 with
  | error e => cases h
  | ok p =>
  obtain ⟨o2, h2, h⟩ := h
  cases o2 with
  | error e => cases h
  | ok jc =>
  obtain ⟨o3, h3, h⟩ := h
  cases o3 with
  | error e => cases h
  | ok jw =>
  obtain ⟨o4, ⟨sched, hs, h4⟩, h⟩ := h
  cases o4 with
  | error e => cases h
  | ok mem =>
  cases h
  exact runActs_w h4.symm (by rw [if_neg (by rw [hw]; decide)])

theorem tensorText_magic {wgt : Bool} {txt : W → List Byte} {k : Nat} (hk : 0 < k) {es : List (List Nat × W)} (hl : ∀ e ∈ es, e.1.length = k) :
    ¬ str "PIGO" <+: es.flatMap (fun e => Pigo.Spec.tensorLine wgt txt e) := by
  cases es with
  | nil => exact fun h => absurd (show str "PIGO" <+: ([] : List Byte) from h) (by decide)
  | cons p ps =>
    rw [List.flatMap_cons, Pigo.Spec.tensorLine]
    intro hpre
    have hp := hl p List.mem_cons_self
    cases hx : p.1 with
    | nil => rw [hx] at hp; simp at hp; omega
    | cons x xs =>
      rw [hx] at hpre
      have hd := showNat_digits x
      have hne := showNat_ne_nil x
      cases hs : Pigo.Spec.showNat x with
      | nil => exact absurd hs hne
      | cons d ds =>
        have hrest : ∃ rest, List.intercalate (str " ") ((x :: xs).map Pigo.Spec.showNat ++ if wgt then [txt p.2] else []) = d :: rest := by
          rw [List.map_cons, List.cons_append, hs]
          cases hz : xs.map Pigo.Spec.showNat ++ (if wgt then [txt p.2] else []) with
          | nil => exact ⟨ds, by simp [List.intercalate]⟩
          | cons y ys => exact ⟨ds ++ str " " ++ List.intercalate (str " ") (y :: ys), by simp [List.intercalate]⟩
        obtain ⟨rest, hrest⟩ := hrest
        rw [hrest] at hpre
        rw [hs] at hd
        simp only [List.cons_append] at hpre
        have : (0x50 : Byte) = d := ((List.cons_prefix_cons (a := (0x50 : Byte)) (l₁ := str "IGO")).mp hpre).1
        subst this
        have := hd 0x50 (List.mem_cons_self)
        revert this
        decide

theorem plain_type {μ : Mapping} {fn : List Byte} (hm : ¬ str "PIGO" <+: μ.bytes) (hfn : Spec.PlainName fn) : usedType μ fn 0 .auto = .ok .edgeList := by
  unfold usedType
  rw [if_pos rfl, C45_by_name μ fn 0 (fun h => hm (by have := h.1; rwa [List.drop_zero] at this)), if_neg hfn.1, if_neg hfn.2]

theorem TWeights.write (hW : TWeights E entry ok) {T : Nat} (hT : 0 < T) {p : List (Nat × TOp)} {k : Nat} {es : List (List Nat × W)} {t : Tensor W}
    (hr : Spec.TReady E ok p k es) (h : Spec.TensorIs E.wk.wgt t k es) {fn : List Byte} {pad : Nat} (hpad : 0 < pad) (hk : 0 < k) (hne : es ≠ []) :
    ∃ txt : W → List Byte, (writeTensor T E.ob E.wt t).All (fun bs => bs = es.flatMap (fun e => Pigo.Spec.tensorLine E.wk.wgt txt e)) ∧
      (writeTensor T E.ob E.wt t).All (fun bs => (readTensor (E.params T) ⟨bs, pad⟩ fn 0 .edgeList).All (fun t' => HoldsT t' E.wk.wgt es ∧ t'.order = t.order)) := by
  have hh := tensorIs_holds h
  have ho : 0 < t.order := by rw [h.order]; exact hk
  have how : t.order + 1 < 2 ^ (8 * E.ob) := by rw [h.order]; exact hr.order
  have hm : t.order * t.m < 2 ^ (8 * E.ob) := by rw [h.order, h.m]; exact hr.size
  have hm' : t.order * t.m < 256 ^ E.ob := by rw [pow8]; exact hm
  have hw := hr.weights
  cases hW with
  | none E hwk hwt =>
    rw [hwk] at hh ⊢
    rw [hwt]
    exact ⟨fun _ => [], C48_tensor_write T E.ob wtNone _ _ .none t es hh ho hm' (fun _ _ => trivial) hne,
      C49_unweighted T (E.params T) hwk hT pad hpad fn t es hh hne ho how hm hr.labels⟩
  | unsigned E ww hwk hwt _ =>
    rw [hwk] at hh hw ⊢
    rw [hwt]
    exact ⟨_, C48_tensor_write T E.ob wtUint _ _ .uint t es hh ho hm' (fun _ _ => trivial) hne,
      C49_unsigned T (E.params T) ww hwk hT pad hpad fn t es hh hne ho how hm hr.labels (hw rfl)⟩
  | signed E ww hwk hwt _ =>
    rw [hwk] at hh hw ⊢
    rw [hwt]
    exact ⟨_, C48_tensor_write T E.ob (wtInt ww) _ _ (.sint ww) t es hh ho hm' (hw rfl) hne,
      C49_signed T (E.params T) ww hwk hT pad hpad fn t es hh hne ho how hm hr.labels (hw rfl)⟩
  | float E ops txt hwk hwt =>
    rw [hwk] at hh hw ⊢
    rw [hwt]
    exact ⟨txt, C48_tensor_write T E.ob (wtFloat txt) _ _ (.float txt) t es hh ho hm' (fun _ _ => trivial) hne,
      C49_float ops txt T (E.params T) hwk hT pad hpad fn t es hh hne ho how hm hr.labels (fun e he => (hw rfl e he).2)⟩

theorem readTensor_bin {P : Params W} {μ : Mapping} {fn : List Byte} {ft : FileType} (hft : usedType μ fn 0 ft = .ok .tensorBin) :
    readTensor P μ fn 0 ft = readBinTensor P.T P.lb P.ob P.wk.wgt P.cw μ 0 := by
  unfold readTensor
  rw [hft]
  funext o
  apply propext
  constructor
  · rintro ⟨_, rfl, h⟩
    exact h
  · intro h
    exact ⟨_, rfl, h⟩

theorem tOp_all (hW : TWeights E entry ok) {T : Nat} (hT : 0 < T) (op : TOp) {p : List (Nat × TOp)} {k : Nat} {es : List (List Nat × W)} {t : Tensor W}
    (hr : Spec.TReady E ok p k es) (h : Spec.TensorIs E.wk.wgt t k es) (hx : ∀ fn pad, op = .write fn pad → Spec.PlainName fn ∧ 0 < pad ∧ 0 < k ∧ es ≠ []) :
    (op.run E T t).All (fun t' => t' = t) := by
  have hf := tensor_fits hW hr h
  cases op with
  | copy =>
    refine C70_copy_tensor (8 * E.ob) T E.wk.wgt t hf.c.1 (by rw [h.order, h.m]; exact hr.size) ?_
    have := hf.w.1
    cases hw : E.wk.wgt with
    | true => rw [hw] at this; exact this
    | false =>
      rw [hw] at this
      exact List.length_eq_zero_iff.mp this
  | save fn pad =>
    have hb := C41_tensor T E.lb E.ob hT E.wk.wgt E.cw t hf
    have hrt := C40_tensor_roundtrip T T E.lb E.ob hT hT hr.lb hr.ob E.wk.wgt E.cw hr.cw t hf pad
    refine R.All.bindOut hb (fun bs hbs hb => ?_)
    rw [readTensor_bin (P := E.params T) (fn := fn) (ft := .auto) (μ := ⟨bs, pad⟩)]
    · exact R.All.of_bind hrt hbs
    · unfold usedType
      rw [if_pos rfl, hb.1]
      exact (C45_saved E.lb E.ob pad E.wk.wgt E.cw fn ⟨[], [], [], 0, 0, 0, 0⟩ ⟨[], [], [], 0, 0, 0, 0⟩
        ⟨⟨[], [], [], 0, 0, 0, 0⟩, ⟨[], [], [], 0, 0, 0, 0⟩⟩ t).2.2.2
  | write fn pad =>
    obtain ⟨hfn, hpad, hk, hne⟩ := hx fn pad rfl
    obtain ⟨txt, h1, h2⟩ := hW.write hT hr h (fn := fn) hpad hk hne
    refine R.All.bind (h1.and h2) ?_
    rintro bs ⟨hb, hrd⟩
    have ht : usedType ⟨bs, pad⟩ fn 0 .auto = .ok .edgeList := plain_type (by rw [hb]; exact tensorText_magic hk h.len) hfn
    rw [readTensor_text (P := E.params T) ht]
    rw [readTensor_text (P := E.params T) (show usedType ⟨bs, pad⟩ fn 0 .edgeList = .ok .edgeList from rfl)] at hrd
    intro out ho
    obtain ⟨t', rfl, ht', ho'⟩ := hrd out ho
    refine ⟨t', rfl, tensorIs_unique h (tensorIs_of ht' (ho'.trans h.order) (fun hw => ?_))⟩
    exact readTensorEl_w hw ho

/-- **C101** for tensors: every program of copies, of saving and loading, and of writing and loading, of any length and with any numbers
of threads, has one outcome: the tensor it started with. -/
theorem C101_tensor (hW : TWeights E entry ok) : ∀ (p : List (Nat × TOp)) (k : Nat) (es : List (List Nat × W)) (t : Tensor W),
    Spec.TensorIs E.wk.wgt t k es → Spec.TReady E ok p k es → ∀ out, (runTensor E p t).Out out → out = .ok t
  | [], k, es, t, h, hr, out, ho => ho
  | (T, op) :: p, k, es, t, h, hr, out, ho => by
    have hr' : Spec.TReady E ok p k es := ⟨hr.lb, hr.ob, hr.cw, hr.labels, hr.weights, hr.order, hr.m, hr.size,
      fun q hq => hr.threads q (List.mem_cons_of_mem _ hq), fun T fn pad hm => hr.text T fn pad (List.mem_cons_of_mem _ hm)⟩
    have h1 := tOp_all hW (hr.threads _ List.mem_cons_self) op hr h (fun fn pad he => hr.text T fn pad (by rw [he]; exact List.mem_cons_self))
    obtain ⟨r, rfl, hq⟩ := R.All.bind h1 (k := fun t' => runTensor E p t') (Q := fun r => r = t) (fun t' ht' => by
      subst ht'
      intro out ho
      exact ⟨t', C101_tensor hW p k es t' h hr' out ho, rfl⟩) out ho
    rw [hq]

/-! ## executions, programs on a loaded file -/

theorem tOp_any [Nonempty W] (E : Types W) {T : Nat} (hT : 0 < T) (op : TOp) (t : Tensor W) : (op.run E T t).Any := by
  have hl : ∀ bs pad fn, (readTensor (E.params T) ⟨bs, pad⟩ fn 0 .auto).Any := fun bs pad fn => (C87_load (E.params T) hT {} ⟨bs, pad⟩ fn 0 .auto).2.2.2.2
  cases op with
  | copy => exact R.Any.bind (R.Any.lift _) (fun _ => R.Any.bind R.Any.any (fun _ => R.Any.bind R.Any.any (fun _ => R.Any.bind (copyLoop_any hT _ _) (fun _ =>
      R.Any.bind (copyWeights_any hT _ _ _ _) (fun _ => R.Any.pure _)))))
  | save fn pad => exact R.Any.bind (C37_saves_run T E.lb E.ob E.wk.wgt E.cw ⟨[], [], [], 0, 0, 0, 0⟩ ⟨[], [], [], 0, 0, 0, 0⟩ t).2.2 (fun bs => hl bs pad fn)
  | write fn pad => exact R.Any.bind (C46_write_runs T hT E.ob E.wt ⟨[], [], [], 0, 0, 0, 0⟩ t).2 (fun bs => hl bs pad fn)

/-- **C101** for tensors: every program has an execution. -/
theorem C101_tensor_runs [Nonempty W] (E : Types W) : ∀ (p : List (Nat × TOp)) (t : Tensor W), (∀ q ∈ p, 0 < q.1) →
    ∃ out, (runTensor E p t).Out out
  | [], t, _ => ⟨_, rfl⟩
  | (T, op) :: p, t, h => R.Any.bind (tOp_any E (h _ List.mem_cons_self) op t)
      (fun t' => C101_tensor_runs E p t' (fun q hq => h q (List.mem_cons_of_mem _ hq)))

theorem TWeights.format (h : TWeights E entry ok) : ∃ wp, TFormat E.wk entry wp ∧ (E.wk.wgt = true → ∀ e, ok e.2 → wp e) ∧ (E.wk.wgt = false → ∀ e, wp e) := by
  cases h with
  | none E hwk _ => exact ⟨_, by rw [hwk]; exact .none, fun _ _ _ => trivial, fun _ _ => trivial⟩
  | unsigned E ww hwk _ _ => exact ⟨_, by rw [hwk]; exact .uint ww, fun _ _ h => h, fun g => by rw [hwk] at g; cases g⟩
  | signed E ww hwk _ _ => exact ⟨_, by rw [hwk]; exact .sint ww, fun _ _ h => h, fun g => by rw [hwk] at g; cases g⟩
  | float E ops _ hwk _ => exact ⟨_, by rw [hwk]; exact .float ops, fun _ _ _ => trivial, fun _ _ => trivial⟩

/-- **C101** for tensors, from a text file to the greatest coordinates: the tensor of a text file, after any program, has the entries of
the file, and `max_labels` gives the maximum of each coordinate over them. -/
theorem C101_tensor_file (hW : TWeights E entry ok) (T T' : Nat) (hT : 0 < T) (μ : Mapping) (hpad : 0 < μ.pad) (fn : List Byte) (ft : FileType)
    (hft : usedType μ fn 0 ft = .ok .edgeList) (k : Nat) (hk : 0 < k) (hok : Pigo.Spec.TensorOk E.wk.wgt entry k μ.bytes)
    (hne : Pigo.Spec.entries (entry k) μ.bytes ≠ []) (p : List (Nat × TOp)) (hr : Spec.TReady E ok p k (Pigo.Spec.entries (entry k) μ.bytes))
    (out : M (Tensor W × List Nat))
    (ho : (readTensor (E.params T) μ fn 0 ft >>= fun t => runTensor E p t >>= fun t' => maxLabels (8 * E.ob) T' t' >>= fun ls => pure (t', ls) : R (Tensor W × List Nat)).Out out) :
    ∃ t ls, out = .ok (t, ls) ∧ Spec.TensorIs E.wk.wgt t k (Pigo.Spec.entries (entry k) μ.bytes) ∧ ls.length = k ∧
      ∀ j, j < k → ls[j]? = some (Pigo.Spec.maxOf ((Pigo.Spec.entries (entry k) μ.bytes).map (fun e => e.1.getD j 0))) := by
  obtain ⟨wp, hf, hwp, hwp'⟩ := hW.format
  have hld := C52_tensor_load (E.params T) hT μ hpad fn ft hft entry wp hf k hk hok
    (fun en he => by
      cases hw : E.wk.wgt with
      | true => exact hwp hw en (hr.weights hw en he)
      | false => exact hwp' hw en) hr.labels hr.order hr.size
  suffices h : (readTensor (E.params T) μ fn 0 ft >>= fun t => runTensor E p t >>= fun t' => maxLabels (8 * E.ob) T' t' >>= fun ls => pure (t', ls) :
      R (Tensor W × List Nat)).All (fun r => Spec.TensorIs E.wk.wgt r.1 k (Pigo.Spec.entries (entry k) μ.bytes) ∧ r.2.length = k ∧
        ∀ j, j < k → r.2[j]? = some (Pigo.Spec.maxOf ((Pigo.Spec.entries (entry k) μ.bytes).map (fun e => e.1.getD j 0)))) by
    obtain ⟨r, rfl, h⟩ := h out ho
    exact ⟨r.1, r.2, rfl, h⟩
  refine R.All.bindOut hld (fun t ht hh => ?_)
  have hord := hh.2 hne
  have hi : Spec.TensorIs E.wk.wgt t k (Pigo.Spec.entries (entry k) μ.bytes) := tensorIs_of hh.1 hord (fun hw => by
    rw [readTensor_text hft] at ht
    exact readTensorEl_w hw ht)
  refine R.All.bind (P := fun t' => t' = t) (fun out ho => ⟨t, C101_tensor hW p k _ t hi hr out ho, rfl⟩) (fun t' ht' => ?_)
  subst ht'
  refine R.All.bind (C53_max_labels T' E.ob t' E.wk.wgt _ hh.1 (by rw [pow8, hord, hi.m]; exact hr.size)) (fun ls hls => ?_)
  rw [hord] at hls
  exact R.All.pure ⟨hi, hls⟩

/-! ## a concrete program -/

/-- Labels of 4 bytes, ordinals of 8, signed weights of 4. -/
def exTTypes : Types Int :=
  { lb := 4, ob := 8, wk := wSint 32, cw := codecInt 4 (by omega), stor := .pointer, wt := wtInt 32, wlt := fun a b => a < b }

/-- Save and load with three threads, copy, write and load with two, save and load again. -/
def exTProg : List (Nat × TOp) := [(3, .save (str "t.bin") 100), (1, .copy), (2, .write (str "t.tns") 5), (4, .save (str "t.mtx") 0)]

theorem exTReady : Spec.TReady exTTypes (fun w => w.natAbs < 2 ^ (32 - 1)) exTProg 3 [([0, 1, 2], -5), ([30, 4, 5], 7)] where
  lb := by decide
  ob := by decide
  cw := by decide
  labels := by decide
  weights := fun _ => by decide
  order := by decide
  m := by decide
  size := by decide
  threads := by decide
  text := by
    intro T fn pad h
    simp only [exTProg, List.mem_cons, Prod.mk.injEq, TOp.write.injEq, reduceCtorEq, and_false, false_or, or_false, List.not_mem_nil] at h
    obtain ⟨rfl, rfl, rfl⟩ := h
    exact ⟨⟨by decide, by decide⟩, by decide, by decide, by decide⟩

theorem exTWeights : TWeights exTTypes (Pigo.Spec.tensorEntryW Pigo.Spec.parseSigned) (fun w => w.natAbs < 2 ^ (32 - 1)) :=
  .signed exTTypes 32 rfl rfl (fun w h => by
    simp only [exTTypes, codecInt]
    constructor <;> omega)

/-- The program on the file `txFile` gives its tensor and the greatest coordinates `30`, `4`, `5`, and runs. -/
theorem C101_tensor_example (T T' : Nat) (hT : 0 < T) (out : M (Tensor Int × List Nat))
    (ho : (readTensor (exTTypes.params T) txFile (str "a.tns") 0 .auto >>= fun t => runTensor exTTypes exTProg t >>= fun t' =>
      maxLabels (8 * exTTypes.ob) T' t' >>= fun ls => pure (t', ls) : R (Tensor Int × List Nat)).Out out) :
    out = .ok (⟨[0, 1, 2, 30, 4, 5], [-5, 7], 3, 2⟩, [30, 4, 5]) ∧
      ∃ out', (runTensor exTTypes exTProg ⟨[0, 1, 2, 30, 4, 5], [-5, 7], 3, 2⟩).Out out' := by
  refine ⟨?_, C101_tensor_runs _ _ _ (by decide)⟩
  obtain ⟨t, ls, rfl, h1, h2, h3⟩ := C101_tensor_file exTWeights T T' hT txFile (by decide) (str "a.tns") .auto (by decide) 3 (by decide) tx_ok
    (by rw [tx_entries]; decide) exTProg (by rw [tx_entries]; exact exTReady) out ho
  rw [tx_entries] at h1 h3
  have ht : t = ⟨[0, 1, 2, 30, 4, 5], [-5, 7], 3, 2⟩ := tensorIs_unique ⟨rfl, rfl, by decide, rfl, rfl⟩ h1
  have hls : ls = [30, 4, 5] := by
    apply List.ext_getElem?
    intro j
    match j with
    | 0 => exact (h3 0 (by decide)).trans (by decide)
    | 1 => exact (h3 1 (by decide)).trans (by decide)
    | 2 => exact (h3 2 (by decide)).trans (by decide)
    | j + 3 => rw [List.getElem?_eq_none (by omega), List.getElem?_eq_none (by simp)]
  rw [ht, hls]

/-! ## C70: Tensors with narrow ordinals -/

/-- **C70 violated**: with 8- or 16-bit ordinals a Tensor can have more coordinates than the ordinal type counts, as `order*m` is
computed in `int`: it is saved and loaded as it is.  The loop of its copy constructor over the coordinates, whose counter is an
ordinal, then never ends. -/
theorem C70_narrow_copy_violated {W : Type} (T lb ob : Nat) (hT : 0 < T) (hlb : lb < 256) (hob : ob < 4) (wgt : Bool) (cw : Codec W)
    (hcw : cw.size < 256) (t : Tensor W) (h : Spec.FitsTensor lb ob wgt cw t) (hb : 2 ^ (8 * ob) ≤ t.order * t.m) (pad : Nat) :
    (saveTensor T lb ob wgt cw t >>= fun bs => readBinTensor T lb ob wgt cw ⟨bs, pad⟩ 0).All (fun r => r = t) ∧
    ∀ out, (copyTensor (8 * ob) T wgt t).Out out → out = .error .fuel := by
  refine ⟨C40_tensor_roundtrip T T lb ob hT hT hlb (by omega) wgt cw hcw t h pad, fun out ho => ?_⟩
  unfold copyTensor at ho
  rw [if_pos (by rw [tensorLen, inOrd, if_pos (by omega)]; exact hb)] at ho
  obtain ⟨_, rfl, ho⟩ := ho
  exact ho

/-- 200 entries of order 2 with 8-bit ordinals. -/
example : Spec.FitsTensor 1 1 false (codecNat 1 (by decide)) { c := List.replicate 400 7, w := [], order := 2, m := 200 } ∧ 2 ^ (8 * 1) ≤ 2 * 200 :=
  ⟨⟨⟨List.length_replicate, fun v hv => by rw [List.eq_of_mem_replicate hv]; decide⟩, ⟨rfl, fun v hv => absurd hv List.not_mem_nil⟩,
    by decide, by decide, .inl ⟨by decide, by decide⟩⟩, by decide⟩

end Pigo.Session
