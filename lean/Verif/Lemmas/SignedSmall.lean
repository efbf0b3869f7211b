import Verif.Spec.Small
import Verif.Lemmas.SignedFiles
import Verif.Props.GraphAny
import Verif.Lemmas.RaceOps
import Verif.Lemmas.RaceBin

/-!
# Signed types do not overflow on files without large numbers
-/

namespace Pigo

variable {W : Type} {α β S : Type}

/-- `a` and `b` agree, and what they give satisfies `P`. -/
def Agree (P : α → Prop) (a b : M α) : Prop := a = b ∧ ∀ v, b = .ok v → P v

theorem Agree.refl {P : α → Prop} {a : M α} (h : ∀ v, a = .ok v → P v) : Agree P a a := ⟨rfl, h⟩

theorem Agree.same (a : M α) : Agree (fun _ => True) a a := ⟨rfl, fun _ _ => trivial⟩

theorem Agree.mono {P Q : α → Prop} {a b : M α} (h : Agree P a b) (hPQ : ∀ v, P v → Q v) : Agree Q a b :=
  ⟨h.1, fun v hv => hPQ v (h.2 v hv)⟩

theorem Agree.bind {P : α → Prop} {Q : β → Prop} {a b : M α} {f g : α → M β} (h : Agree P a b)
    (hf : ∀ v, P v → Agree Q (f v) (g v)) : Agree Q (a >>= f) (b >>= g) := by
  obtain ⟨rfl, h2⟩ := h
  cases a with
  | error e => exact ⟨rfl, fun v hv => by rw [error_bind] at hv; cases hv⟩
  | ok v => rw [ok_bind, ok_bind]; exact hf v (h2 v rfl)

theorem Agree.ok {P : α → Prop} {a : α} (h : P a) : Agree P (.ok a) (.ok a) := ⟨rfl, fun v hv => by cases hv; exact h⟩

theorem Agree.error {P : α → Prop} {e : Fault} : Agree P (.error e : M α) (.error e) := ⟨rfl, fun v hv => by cases hv⟩

theorem Agree.mapE {P : β → Prop} {f g : α → M β} : ∀ (l : List α), (∀ a ∈ l, Agree P (f a) (g a)) →
    Agree (fun bs => ∀ b ∈ bs, P b) (mapE f l) (mapE g l)
  | [], _ => .ok (by simp)
  | a :: l, h => by
    simp only [Pigo.mapE]
    refine (h a (List.mem_cons_self ..)).bind (fun b hb => (Agree.mapE l (fun a ha => h a (List.mem_cons_of_mem _ ha))).bind
      (fun bs hbs => .ok ?_))
    intro c hc
    rcases List.mem_cons.mp hc with rfl | hc
    · exact hb
    · exact hbs c hc

theorem wrapS_small {w n : Nat} (h : n < 2 ^ (w - 1)) : wrapS w n = .ok n ∧ n % 2 ^ w = n :=
  ⟨if_pos h, Nat.mod_eq_of_lt (Nat.lt_of_lt_of_le h (pow_pred_le w))⟩

/-! ## integers -/

theorem isDigit_zero : isDigit 0 = false := by decide

theorem decimal_snoc (t : List Byte) (b : Byte) : Spec.decimal (t ++ [b]) = Spec.decimal t * 10 + digitVal b := by
  unfold Spec.decimal
  rw [List.foldl_append]
  simp only [List.foldl_cons, List.foldl_nil, digitVal]
  rw [Nat.mul_comm]
  rfl

/-- The byte at a digit is in the file. -/
theorem get_digit {μ : Mapping} {p : Nat} {b : Byte} (h : μ.get p = .ok b) (hb : isDigit b = true) : μ.bytes[p]? = some b := by
  unfold Mapping.get at h
  cases hp : μ.bytes[p]? with
  | some c => rw [hp] at h; simp only at h; injection h with h; rw [h]
  | none =>
    rw [hp] at h
    simp only at h
    split at h
    · injection h with h; subst h; exact absurd hb (by decide)
    · cases h

theorem readDigitsN_small {μ : Mapping} {w k : Nat} (hk : k ≤ 2 ^ (w - 1)) (h : Spec.NumbersBelow k μ.bytes) :
    ∀ (n res : Nat) (r : Reader) (t : List Byte), (∃ p, μ.bytes.take r.d = p ++ t) → (∀ b ∈ t, isDigit b = true) → Spec.decimal t = res →
      Agree (fun x => x.1 < k) (readDigitsN μ (wrapS w) n res r) (readDigitsN μ (wrapU w) n res r) := by
  have hval : ∀ (r : Reader) (t : List Byte), (∃ p, μ.bytes.take r.d = p ++ t) → (∀ b ∈ t, isDigit b = true) → Spec.decimal t < k := by
    rintro r t ⟨p, hp⟩ ht
    refine h t ?_ (fun b hb => by rw [isDigit_spec]; exact ht b hb)
    exact ⟨p, μ.bytes.drop r.d, by rw [← hp]; exact List.take_append_drop ..⟩
  intro n
  induction n with
  | zero =>
    intro res r t hp ht hr
    simp only [readDigitsN]
    exact .ok (by rw [← hr]; exact hval r t hp ht)
  | succ n ih =>
    intro res r t hp ht hr
    have hlt : res < k := by rw [← hr]; exact hval r t hp ht
    simp only [readDigitsN]
    split
    · cases hb : μ.get r.d with
      | error e => exact .error
      | ok b =>
        rw [ok_bind, ok_bind]
        split
        · rename_i hd
          have hget := get_digit hb hd
          have hp' : ∃ p, μ.bytes.take r.adv.d = p ++ (t ++ [b]) := by
            obtain ⟨p, hp⟩ := hp
            refine ⟨p, ?_⟩
            have hlen : r.d < μ.bytes.length := by
              rw [List.getElem?_eq_some_iff] at hget; exact hget.1
            show μ.bytes.take (r.d + 1) = _
            rw [List.take_succ, hget, hp, List.append_assoc]; rfl
          have ht' : ∀ c ∈ t ++ [b], isDigit c = true := by
            intro c hc
            rcases List.mem_append.mp hc with hc | hc
            · exact ht c hc
            · rw [List.mem_singleton.mp hc]; exact hd
          have hv := hval r.adv (t ++ [b]) hp' ht'
          have hs := decimal_snoc t b
          rw [hr] at hs
          rw [hs] at hv
          obtain ⟨h1, h2⟩ := wrapS_small (Nat.lt_of_lt_of_le hv hk)
          rw [h1, wrapU, h2, ok_bind, ok_bind]
          exact ih _ _ _ hp' ht' hs
        · exact .ok hlt
    · exact .ok hlt

theorem readInt_small {μ : Mapping} {w k : Nat} (hk : k ≤ 2 ^ (w - 1)) (h : Spec.NumbersBelow k μ.bytes) (r : Reader) :
    Agree (fun x => x.1 < k) (readInt μ (wrapS w) r) (readInt μ (wrapU w) r) := by
  refine (Agree.same _).bind (fun r _ => ?_)
  exact readDigitsN_small hk h _ _ _ [] ⟨_, (List.append_nil _).symm⟩ (by simp) rfl

/-! ## counters -/

/-- A counter that grows by at most `c` in every iteration. -/
theorem whileGood_bound {σ : Type} {f : σ → Reader → M (σ × Reader)} (g : σ → Nat) (c : Nat) (hf : ∀ s r s' r', f s r = .ok (s', r') → g s' ≤ g s + c) :
    ∀ (n : Nat) (s : σ) (r : Reader) (s' : σ) (r' : Reader), whileGood f n s r = .ok (s', r') → g s' ≤ g s + c * n := by
  intro n
  induction n with
  | zero =>
    intro s r s' r' h
    rw [whileGood] at h
    split at h
    · cases h
    · cases h; omega
  | succ n ih =>
    intro s r s' r' h
    rw [whileGood] at h
    split at h
    · cases hb : f s r with
      | error e => rw [hb, error_bind] at h; cases h
      | ok x =>
        rw [hb, ok_bind] at h
        have h1 := hf s r x.1 x.2 hb
        have h2 := ih _ _ _ _ h
        rw [Nat.mul_succ]; omega
    · cases h; omega

theorem bind_okS {a : M α} {f : α → M β} {v : β} (h : (a >>= f) = .ok v) : ∃ x, a = .ok x ∧ f x = .ok v := by
  cases a with
  | error e => rw [error_bind] at h; cases h
  | ok x => exact ⟨x, rfl, h⟩

theorem graphCount_bound (μ : Mapping) (c : GCount) (r : Reader) (c' : GCount) (r' : Reader) (h : graphCount μ c r = .ok (c', r')) :
    c'.nls + c'.ints ≤ c.nls + c.ints + 1 := by
  obtain ⟨b, _, h⟩ := bind_okS h
  obtain ⟨z, _, h⟩ := bind_okS h
  obtain ⟨r2, _, h⟩ := bind_okS h
  cases h
  cases b
  · simp only [Bool.false_eq_true, if_false]; omega
  · simp only [if_true]; omega

theorem graphCountAll_bound (μ : Mapping) (rs : Reader) (c : GCount) (h : graphCountAll μ rs = .ok c) : c.nls + c.ints ≤ rs.e - rs.d := by
  obtain ⟨x, hx, h⟩ := bind_okS h
  cases h
  have := whileGood_bound (fun c : GCount => c.nls + c.ints) 1 (graphCount_bound μ) _ _ _ _ _ hx
  simp only at this
  omega

theorem plus_keeps (r : Reader) (s : Nat) (h : r.d ≤ r.e) : (r.plus s).d ≤ r.e ∧ (r.plus s).e = r.e := by
  unfold Reader.plus
  refine ⟨?_, rfl⟩
  simp only
  split <;> omega

theorem graphRegion_bound (μ : Mapping) (r : Reader) (h : r.d ≤ r.e) (T tid : Nat) (rs : Reader) (hr : graphRegion μ r T tid = .ok rs) : rs.e ≤ r.e := by
  obtain ⟨re, h1, hr⟩ := bind_okS hr
  obtain ⟨r0, h2, hr⟩ := bind_okS hr
  cases hr
  have k1 := (Keeps.moveToNextInt μ (plus_keeps r ((tid + 1) * r.size / T) h)).keeps _ h1
  have k2 : r0.d ≤ r.e ∧ r0.e = r.e := by
    unfold graphStart at h2
    split at h2
    · exact (Keeps.moveToNextInt μ (plus_keeps r (tid * r.size / T) h)).keeps _ h2
    · exact (Keeps.moveToFirstInt μ (plus_keeps r (tid * r.size / T) h)).keeps _ h2
  simp only [id] at k1
  unfold Reader.smallerEnd
  split
  · exact k1.1
  · exact Nat.le_of_eq k2.2

theorem prefixSums_bound {L : Nat} : ∀ (cs : List Nat) (acc i : Nat), (∀ c ∈ cs, c ≤ L) → (prefixSums acc cs).getD i 0 ≤ acc + cs.length * L
  | [], acc, i, _ => by simp [prefixSums]
  | c :: cs, acc, i, h => by
    have hc := h c (List.mem_cons_self ..)
    rw [prefixSums, List.length_cons, Nat.succ_mul]
    cases i with
    | zero => simp only [List.getD_cons_zero]; omega
    | succ i =>
      rw [List.getD_cons_succ]
      have := prefixSums_bound cs (acc + c) i (fun c hc => h c (List.mem_cons_of_mem _ hc))
      omega

/-! ## `.graph` -/

section
variable {μ : Mapping} {lw ow k : Nat}

theorem sGraphHeader_small {kn km : Nat} (hkn : kn ≤ 2 ^ (lw - 1)) (hkm : km ≤ 2 ^ (ow - 1)) (hn : Spec.NumbersBelow kn μ.bytes)
    (hm : Spec.NumbersBelow km μ.bytes) {e : Nat} {r : Reader} (hr : r.d ≤ e ∧ r.e = e) :
    Agree (fun x => x.2.1 < km ∧ x.2.2.d ≤ e ∧ x.2.2.e = e) (sGraphHeader μ lw ow r) (graphHeader μ lw ow r) := by
  suffices h : Agree (fun x => x.2.1 < km) (sGraphHeader μ lw ow r) (graphHeader μ lw ow r) from
    ⟨h.1, fun v hv => ⟨h.2 v hv, (Keeps.graphHeader μ lw ow hr).keeps v hv⟩⟩
  unfold sGraphHeader graphHeader
  refine (Agree.same _).bind (fun r _ => (readInt_small hkn hn r).bind (fun x _ => (Agree.same _).bind (fun r _ =>
    (readInt_small hkm hm r).bind (fun y hy => (Agree.same _).bind (fun r _ => (Agree.same _).bind (fun r _ => .ok hy))))))

theorem sGraphSetN_small (hk : k ≤ 2 ^ (lw - 1)) (h : Spec.NumbersBelow k μ.bytes) {n : Nat} (hn : n < 2 ^ (lw - 1)) :
    ∀ (c : Nat) (s : GSt) (r : Reader), s.ep + c < 2 ^ (ow - 1) → s.mx < k →
      Agree (fun s => s.mx < k) (sGraphSetN μ lw ow n c s r) (graphSetN μ lw ow n c s r) := by
  intro c
  induction c with
  | zero =>
    intro s r _ hm
    simp only [sGraphSetN, graphSetN]
    split
    · exact .error
    · exact .ok hm
  | succ c ih =>
    intro s r hep hm
    simp only [sGraphSetN, graphSetN]
    split
    · rename_i hg
      have hoff : s.off < n := by
        have := (Bool.and_eq_true _ _ ▸ hg).2
        simpa using this
      refine Agree.bind (P := fun x => x.1.ep + c < 2 ^ (ow - 1) ∧ x.1.mx < k) ?_ (fun x hx => ih x.1 x.2 hx.1 hx.2)
      unfold sGraphSet graphSet
      refine (Agree.same _).bind (fun b _ => ?_)
      cases b
      · simp only [Bool.false_eq_true, if_false]
        refine (readInt_small hk h r).bind (fun x hx => ?_)
        obtain ⟨h1, h2⟩ := wrapS_small (w := ow) (n := s.ep + 1) (by omega)
        rw [h1, h2, ok_bind]
        exact (Agree.same _).bind (fun r _ => .ok ⟨by simp only; omega, by simp only; omega⟩)
      · simp only [if_true]
        obtain ⟨h1, h2⟩ := wrapS_small (w := lw) (n := s.off + 1) (by omega)
        rw [h1, h2, ok_bind]
        exact (Agree.same _).bind (fun r _ => .ok ⟨by simp only; omega, hm⟩)
    · exact .ok hm

/-- What the plan for a file of at most `L` bytes gives, and that the signed types give the same. -/
theorem sGraphPlan_small {kn km L T : Nat} (hkn : kn ≤ 2 ^ (lw - 1)) (h0 : 0 < kn) (hkm : km ≤ 2 ^ (ow - 1)) (hn : Spec.NumbersBelow kn μ.bytes)
    (hm : Spec.NumbersBelow km μ.bytes) {r : Reader} (hr : r.d ≤ L ∧ r.e = L)
    (hlw : T * L + 2 < 2 ^ (lw - 1)) (how : (T + 1) * L < 2 ^ (ow - 1)) :
    Agree (fun p => p.readM < km ∧ p.n + 1 < 2 ^ (lw - 1) ∧ p.colMax < kn ∧ p.m ≤ T * L) (sGraphPlan μ lw ow T r) (graphPlan μ lw ow T r) := by
  unfold sGraphPlan graphPlan
  refine (sGraphHeader_small hkn hkm hn hm hr).bind ?_
  rintro ⟨readN, readM, r1⟩ ⟨hrm, hr1⟩
  simp only at hrm hr1 ⊢
  refine Agree.bind (P := fun regions => regions.length = T ∧ ∀ rs ∈ regions, rs.e ≤ L) (.refl ?_) ?_
  · intro regions hreg
    refine ⟨by rw [mapE_len hreg, List.length_range], fun rs hrs => ?_⟩
    obtain ⟨tid, _, ht⟩ := mapE_mem hreg hrs
    have := graphRegion_bound μ r1 (by omega) T tid rs ht
    omega
  · rintro regions ⟨hlen, hreg⟩
    refine Agree.bind (P := fun counts => counts.length = T ∧ ∀ c ∈ counts, c.nls ≤ L ∧ c.ints ≤ L) (.refl ?_) ?_
    · intro counts hcnt
      refine ⟨by rw [mapE_len hcnt, hlen], fun c hc => ?_⟩
      obtain ⟨rs, hrs, h⟩ := mapE_mem hcnt hc
      have h1 := graphCountAll_bound μ rs c h
      have h2 := hreg rs hrs
      omega
    · rintro counts ⟨hclen, hcnt⟩
      generalize hb : (if counts.any (·.zero) then 0 else 1) = base
      have hbase : base ≤ 1 := by rw [← hb]; split <;> omega
      have hnl : ∀ i, (prefixSums base (counts.map (·.nls))).getD i 0 ≤ 1 + T * L := by
        intro i
        have := prefixSums_bound (L := L) (counts.map (·.nls)) base i (fun c hc => by
          obtain ⟨d, hd, rfl⟩ := List.mem_map.mp hc; exact (hcnt d hd).1)
        rw [List.length_map, hclen] at this
        omega
      have hint : ∀ i, (prefixSums 0 (counts.map (·.ints))).getD i 0 ≤ T * L := by
        intro i
        have := prefixSums_bound (L := L) (counts.map (·.ints)) 0 i (fun c hc => by
          obtain ⟨d, hd, rfl⟩ := List.mem_map.mp hc; exact (hcnt d hd).2)
        rw [List.length_map, hclen] at this
        omega
      rw [Nat.succ_mul] at how
      have hM := hint (T - 1)
      have hN := hnl (T - 1)
      obtain ⟨m1, m2⟩ := wrapS_small (w := ow) (n := (prefixSums 0 (counts.map (·.ints))).getD (T - 1) 0) (by omega)
      obtain ⟨n1, n2⟩ := wrapS_small (w := lw) (n := (prefixSums base (counts.map (·.nls))).getD (T - 1) 0) (by omega)
      rw [m1, n1, m2, n2, ok_bind, ok_bind]
      refine Agree.bind (P := fun sts => ∀ s ∈ sts, s.mx < kn) (Agree.mapE _ ?_) ?_
      · rintro ⟨tid, rs⟩ hp
        have hrs := hreg rs (List.of_mem_zip hp).2
        unfold sGraphSetAll graphSetAll
        simp only
        have a1 : (if tid > 0 then (prefixSums base (counts.map (·.nls))).getD (tid - 1) 0 else base) < 2 ^ (lw - 1) := by
          have := hnl (tid - 1)
          split <;> omega
        have a2 : (if tid > 0 then (prefixSums 0 (counts.map (·.ints))).getD (tid - 1) 0 else 0) ≤ T * L := by
          have := hint (tid - 1)
          split <;> omega
        obtain ⟨b1, b2⟩ := wrapS_small (w := lw) a1
        obtain ⟨b3, b4⟩ := wrapS_small (w := ow) (Nat.lt_of_le_of_lt a2 (by omega))
        rw [b1, b3, b2, b4, ok_bind, ok_bind]
        exact sGraphSetN_small hkn hn (by omega) _ _ _ (by simp only; omega) h0
      · intro sts hs
        refine .ok ⟨hrm, by simp only; omega, ?_, hM⟩
        simp only
        have : ∀ (l : List GSt) (a : Nat), a < kn → (∀ s ∈ l, s.mx < kn) → l.foldl (fun a s => max a s.mx) a < kn := by
          intro l
          induction l with
          | nil => intro a ha _; exact ha
          | cons x l ih =>
            intro a ha hl
            exact ih (max a x.mx) (by have := hl x (List.mem_cons_self ..); omega) (fun s hs => hl s (List.mem_cons_of_mem _ hs))
        exact this sts 0 h0 hs

theorem sGraphFinish_small {p : GPlan} (h1 : 2 * p.readM < 2 ^ (ow - 1)) (h2 : p.colMax + 1 < 2 ^ (lw - 1)) (o e : List Nat) :
    (sGraphFinish lw ow p o e : M (Csr W)) = graphFinish lw ow p o e := by
  unfold sGraphFinish graphFinish
  rw [wrapS_lt h1, ok_bind, twice_lt (Nat.lt_of_lt_of_le h1 (pow_pred_le ow))]
  obtain ⟨a, b⟩ := wrapS_small h2
  split
  · rfl
  · split
    · rfl
    · rw [a, b, ok_bind]

theorem liftBind (a : M α) (f : α → R β) (g : α → R β) (h : ∀ v, a = .ok v → f v = g v) : (R.lift a >>= f) = (R.lift a >>= g) := by
  have hh : ∀ (f g : α → R β), (∀ v, a = .ok v → f v = g v) → ∀ out, (R.lift a >>= f) out → (R.lift a >>= g) out := by
    rintro f g h out ⟨o, rfl, hk⟩
    refine ⟨o, rfl, ?_⟩
    cases o with
    | error e => exact hk
    | ok v => simp only at hk ⊢; rw [← h v rfl]; exact hk
  funext out
  exact propext ⟨hh f g h out, hh g f (fun v hv => (h v hv).symm) out⟩

theorem liftOk (v : α) (f : α → R β) : (R.lift (.ok v) >>= f) = f v := by
  funext out
  exact propext ⟨fun ⟨o, ho, hk⟩ => by cases ho; exact hk, fun hk => ⟨_, rfl, hk⟩⟩

theorem sReadGraph_small {kn km L T : Nat} (hkn : kn + 1 ≤ 2 ^ (lw - 1)) (h0 : 0 < kn) (hkm : 2 * km ≤ 2 ^ (ow - 1)) (hn : Spec.NumbersBelow kn μ.bytes)
    (hm : Spec.NumbersBelow km μ.bytes) {r : Reader} (hr : r.d ≤ L ∧ r.e = L)
    (hlw : T * L + 2 < 2 ^ (lw - 1)) (how : (T + 1) * L < 2 ^ (ow - 1)) :
    (sReadGraph lw ow T μ r : R (Csr W)) = readGraph lw ow T μ r := by
  obtain ⟨h1, h2⟩ := sGraphPlan_small (by omega) h0 (by omega) hn hm hr hlw how
  unfold sReadGraph readGraph
  rw [h1]
  refine liftBind _ _ _ (fun p hp => ?_)
  obtain ⟨a, b, c, _⟩ := h2 p hp
  rw [wrapS_lt b, liftOk, plusOne_small b]
  have hf : ∀ o e : List Nat, (sGraphFinish lw ow p o e : M (Csr W)) = graphFinish lw ow p o e :=
    sGraphFinish_small (by omega) (by omega)
  simp only [hf]

end

end Pigo
