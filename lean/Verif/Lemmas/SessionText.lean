import Verif.Lemmas.SessionFile

/-!
# Writing text and loading it, on the graphs the objects hold
-/

namespace Pigo.Session

variable {W : Type}

/-- The allowed weights are printed as a word that is read back as the same weight. -/
def TextOk (E : Types W) (ok : W → Prop) : Prop :=
  ∃ (txt : W → List Byte) (entry : List Byte → Option (Nat × Nat × W)) (wp : Nat × Nat × W → Prop) (okp : W → Prop),
    Printer E.wt txt okp ∧ Format E.wk entry wp ∧ E.wt.wgt = E.wk.wgt ∧
    ∀ e : Nat × Nat × W, ok e.2.2 → okp e.2.2 ∧ wp e ∧ (E.wk.wgt = true → Word (txt e.2.2)) ∧
      entry (unwords (cooWords E.wk.wgt txt e)) = some e

/-- The text of edges does not start with the magic number of binary files. -/
theorem cooText_magic {wgt : Bool} {txt : W → List Byte} (es : List (Nat × Nat × W)) : ¬ str "PIGO" <+: Pigo.Spec.cooText wgt txt es := by
  cases es with
  | nil => exact fun h => absurd (show str "PIGO" <+: ([] : List Byte) from h) (by decide)
  | cons p ps =>
    rw [Pigo.Spec.cooText, List.flatMap_cons, Pigo.Spec.cooLine]
    intro hpre
    have hd := showNat_digits p.1
    have hne := showNat_ne_nil p.1
    cases hs : Pigo.Spec.showNat p.1 with
    | nil => exact absurd hs hne
    | cons d ds =>
      rw [hs] at hpre hd
      simp only [List.cons_append] at hpre
      have : (0x50 : Byte) = d := ((List.cons_prefix_cons (a := (0x50 : Byte)) (l₁ := str "IGO")).mp hpre).1
      subst this
      have := hd 0x50 (List.mem_cons_self)
      revert this
      decide

theorem maxOf_perm {l l' : List Nat} (h : l.Perm l') : Pigo.Spec.maxOf l = Pigo.Spec.maxOf l' := by
  unfold Pigo.Spec.maxOf
  exact List.Perm.foldl_eq' h (fun x _ y _ z => by omega) _

theorem maxLabel_perm {l l' : List (Nat × Nat)} (h : l.Perm l') : Pigo.Spec.maxLabel l = Pigo.Spec.maxLabel l' :=
  maxOf_perm (h.flatMap_right _)

theorem dims_ends {wgt : Bool} (es : List (Nat × Nat × W)) :
    max (Pigo.Spec.rowDim es) (Pigo.Spec.colDim es) = Pigo.Spec.maxLabel ((es.map (view wgt)).map Spec.ends) + 1 := by
  have e1 : ((es.map (view wgt)).map Spec.ends).map Prod.fst = es.map (fun e => e.1) := by rw [List.map_map, List.map_map]; rfl
  have e2 : ((es.map (view wgt)).map Spec.ends).map Prod.snd = es.map (fun e => e.2.1) := by rw [List.map_map, List.map_map]; rfl
  rw [maxLabel_eq]
  rw [e1, e2, Pigo.Spec.rowDim, Pigo.Spec.colDim]
  omega

variable [Inhabited W] {E : Types W} {N : Nat} {ok : W → Prop}

omit [Inhabited W] in
/-- The graph with only the vertices up to the largest label is within the same bounds. -/
theorem within_text {s : Net W} (h : Within N ok s) (hne : s.es ≠ []) :
    Within N ok ⟨Pigo.Spec.maxLabel (s.es.map Spec.ends) + 1, s.es⟩ := by
  refine ⟨?_, ?_, h.w⟩
  · have hn : 0 < s.n := by
      cases hs : s.es with
      | nil => exact absurd hs hne
      | cons e es =>
        have := (h.ends e (by rw [hs]; exact List.mem_cons_self)).1
        omega
    have := maxLabel_le (es := s.es.map Spec.ends) (n := s.n - 1) (by
      intro p hp
      obtain ⟨e, he, rfl⟩ := List.mem_map.mp hp
      obtain ⟨h1, h2⟩ := h.ends e he
      simp only [Spec.ends]
      omega)
    have := h.n
    dsimp only
    omega
  · intro e he
    have := le_maxLabel (List.mem_map_of_mem (f := Spec.ends) he)
    simp only [Spec.ends] at this
    dsimp only
    omega

theorem write_is (hE : TypesOk E N ok) (hx : TextOk E ok) {T : Nat} (hT : 0 < T) {c : Coo W} {s : Net W} (h : Spec.CooIs E.wk.wgt c s)
    (hs : Within N ok s) (hm : s.es.length < 2 ^ (8 * E.ob)) (hne : s.es ≠ []) (k : Kind) {fn : List Byte} (hfn : Spec.PlainName fn)
    {pad : Nat} (hpad : 0 < pad) :
    (writeCoo T E.wt c >>= fun bs => load (E.params T) k ⟨bs, pad⟩ fn).All
      (fun o => Spec.Is E.wk.wgt k o ⟨Pigo.Spec.maxLabel (s.es.map Spec.ends) + 1, s.es⟩) := by
  obtain ⟨txt, entry, wp, okp, hpr, hf, hww, hall⟩ := hx
  obtain ⟨es, hh, hp⟩ := cooIs_holds h
  have hr := within_raw hE hs hp
  have hes : es ≠ [] := by
    rintro rfl
    exact hne (List.Perm.nil_eq hp).symm
  refine R.All.bind (C46_coo_write T E.wt txt okp hpr c es (by rw [hww]; exact hh) (fun e he => (hall e (hr e he).2.2).1) hes) (fun bs hbs => ?_)
  obtain ⟨g1, g2⟩ := cooText_entries (wgt := E.wk.wgt) (txt := txt) (es := es) (entry := entry)
    (fun e he => (hall e (hr e he).2.2).2.2.1) (fun e he => (hall e (hr e he).2.2).2.2.2)
  have hb : bs = Pigo.Spec.cooText E.wk.wgt txt es := by rw [hbs, hww]; rfl
  have hN := hE.N
  have hn := hs.n
  obtain ⟨ht, hc⟩ := readCoo_text (E.params T) hT hE.lb.1 ⟨bs, pad⟩ hpad fn (by rw [hb]; exact cooText_magic es) hfn.1 hfn.2 hf
    (by rw [hb]; exact g1) (by dsimp only; rw [hb, g2]; exact fun e he => (hall e (hr e he).2.2).2.1)
    (by
      dsimp only
      rw [hb, g2]
      intro e he
      obtain ⟨h1, h2, _⟩ := hr e he
      show _ < 2 ^ (8 * E.lb) ∧ _ < 2 ^ (8 * E.lb)
      omega)
    (by dsimp only; rw [hb, g2, perm_len hp]; exact hm)
  refine load_is hE hT (within_text hs hne) hm ht (.inr (.inl rfl)) (hc.mono (fun r hr => ?_)) k
  dsimp only at hr
  rw [hb, g2] at hr
  refine cooIs_of hr.holds ?_ hp
  rw [hr.n, dims_ends (wgt := E.wk.wgt), maxLabel_perm (hp.map Spec.ends)]

end Pigo.Session
