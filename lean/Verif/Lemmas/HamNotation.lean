import Verif.Lemmas.HamCons
import Verif.Spec.WellFormed
import Mathlib.Tactic.FieldSimp

/-!
# What assigning the notation does to the stored values
-/

set_option autoImplicit false

set_option linter.unusedSectionVars false

namespace Magnopy

open PyDict

theorem keeps_iff (b : Bond) : St.keeps b = true ↔ Canonical b := by
  obtain ⟨a, c, i, j, k⟩ := b
  simp only [St.keeps, Canonical, Bool.or_eq_true, Bool.and_eq_true, decide_eq_true_eq, Prod.mk.injEq]
  constructor
  · rintro (((h | h) | h) | h)
    · exact Or.inl h
    · exact Or.inr (Or.inl h)
    · exact Or.inr (Or.inr (Or.inl ⟨h.1.1, h.1.2, h.2⟩))
    · exact Or.inr (Or.inr (Or.inr ⟨⟨h.1.1.1, h.1.1.2, h.1.2⟩, h.2⟩))
  · rintro (h | h | h | h)
    · exact Or.inl (Or.inl (Or.inl h))
    · exact Or.inl (Or.inl (Or.inr h))
    · exact Or.inl (Or.inr ⟨⟨h.1, h.2.1⟩, h.2.2⟩)
    · exact Or.inr ⟨⟨⟨h.1.1, h.1.2.1⟩, h.1.2.2⟩, h.2⟩

/-- Of a bond and its mirror exactly one is canonical. -/
theorem keeps_mirror {b : Bond} (hne : b.mirror ≠ b) (hi : b.1.index = b.2.1.index → b.1 = b.2.1) :
    St.keeps b.mirror = !St.keeps b := by
  obtain ⟨a, c, i, j, k⟩ := b
  have hm : Bond.mirror (a, c, i, j, k) = (c, a, -i, -j, -k) := rfl
  rw [hm] at hne ⊢
  rw [Bool.eq_iff_iff, Bool.not_eq_true', ← Bool.not_eq_true, keeps_iff, keeps_iff]
  simp only [Canonical, Prod.mk.injEq] at *
  have key : ¬ (i = 0 ∧ j = 0 ∧ k = 0 ∧ a.index = c.index) := by
    rintro ⟨rfl, rfl, rfl, h⟩
    exact hne (by simp [hi h])
  omega

namespace St

variable {K : Type*} [Field K]

/-- `t` differs from `s` in factors at the stored values (and maybe in `sn`, `ef`, `osf`). -/
structure Scaled (s t : St K) (xe : Bond → K) (xo : Atom → K) : Prop where
  next : t.next = s.next
  atoms : t.atoms = s.atoms
  exch : t.exch = s.exch
  onSite : t.onSite = s.onSite
  dc : t.dc = s.dc
  spin : t.spin = s.spin
  dist : t.dist = s.dist
  valE : ∀ b, t.valE b = (s.valE b).map fun m => xe b • m
  valO : ∀ a, t.valO a = (s.valO a).map fun m => xo a • m

namespace Scaled

theorem refl (s : St K) : Scaled s s (fun _ => 1) (fun _ => 1) :=
  ⟨rfl, rfl, rfl, rfl, rfl, rfl, rfl, fun b => by simp, fun b => by simp⟩

theorem trans {s t u : St K} {xe ye xo yo} (h : Scaled s t xe xo) (g : Scaled t u ye yo) :
    Scaled s u (fun b => ye b * xe b) (fun a => yo a * xo a) where
  next := g.next.trans h.next
  atoms := g.atoms.trans h.atoms
  exch := g.exch.trans h.exch
  onSite := g.onSite.trans h.onSite
  dc := g.dc.trans h.dc
  spin := g.spin.trans h.spin
  dist := g.dist.trans h.dist
  valE b := by rw [g.valE, h.valE, Option.map_map]; congr 1; funext m; simp [smul_smul]
  valO b := by rw [g.valO, h.valO, Option.map_map]; congr 1; funext m; simp [smul_smul]

/-- Factors matter only at the stored keys. -/
theorem congr_factors {s t : St K} {xe ye xo yo} (h : Scaled s t xe xo)
    (he : ∀ b ∈ s.exch.keys, ye b = xe b) (ho : ∀ a ∈ s.onSite.keys, yo a = xo a) : Scaled s t ye yo where
  next := h.next
  atoms := h.atoms
  exch := h.exch
  onSite := h.onSite
  dc := h.dc
  spin := h.spin
  dist := h.dist
  valE b := by
    rw [h.valE]
    unfold St.valE
    cases hb : s.exch.get? b with
    | none => rfl
    | some r => simp [he b (mem_keys_iff.2 ⟨r, hb⟩)]
  valO b := by
    rw [h.valO]
    unfold St.valO
    cases hb : s.onSite.get? b with
    | none => rfl
    | some r => simp [ho b (mem_keys_iff.2 ⟨r, hb⟩)]

theorem keysNodup {s t : St K} {xe xo} (h : Scaled s t xe xo) (hs : s.KeysNodup) : t.KeysNodup :=
  ⟨by rw [h.exch]; exact hs.exch, by rw [h.onSite]; exact hs.site⟩

theorem sound {s t : St K} {xe xo} (h : Scaled s t xe xo) (hs : s.Sound) : t.Sound := by
  refine ⟨h.keysNodup hs.keys, ⟨?_, ?_⟩, ⟨?_, ?_⟩, ⟨?_, ?_, ?_⟩, ?_, ?_⟩
  · rw [h.exch, h.atoms]; exact hs.refer.exch
  · rw [h.onSite, h.atoms]; exact hs.refer.site
  · rw [h.exch, h.next]; exact hs.alloc.exch
  · rw [h.onSite, h.next]; exact hs.alloc.site
  · rw [h.exch]; exact hs.noShare.exch
  · rw [h.onSite]; exact hs.noShare.site
  · rw [h.exch, h.onSite]; exact hs.noShare.cross
  · rw [h.atoms]; exact hs.index
  · rw [h.exch]; exact hs.noSelf

theorem wellFormed {s t : St K} {xe xo} (h : Scaled s t xe xo) (hx : ∀ b : Bond, xe b.mirror = xe b)
    (hs : s.WellFormed) : t.WellFormed := by
  refine ⟨h.sound hs.toSound, ?_, ?_⟩
  · intro hd b
    rw [h.dc] at hd
    rw [h.valE, h.valE, hs.twice hd b, hx, Option.map_map, Option.map_map]
    congr 1
  · rw [h.dc, h.exch]; exact hs.once

theorem spins {s t : St K} {xe xo} (h : Scaled s t xe xo) {sp : Atom → K} (hs : s.Spins sp) : t.Spins sp := by
  unfold Spins at *
  rw [h.atoms, h.spin]; exact hs

end Scaled

/-! ### The three rescaling setters -/

theorem scaled_exch {s : St K} (hk : s.KeysNodup) (hs : s.NoShare) (x : Bond → K) :
    Scaled s (s.exch.foldl (wr x) s) x (fun _ => 1) := by
  have hf := foldl_wr_frame x s.exch s
  have hv := foldl_wr_exch hk hs x
  exact ⟨hf.2, (congrArg Ham.atoms hf.1 :), (congrArg Ham.exch hf.1 :), (congrArg Ham.onSite hf.1 :),
    (congrArg Ham.dc hf.1 :), (congrArg Ham.spin hf.1 :), (congrArg Ham.dist hf.1 :), hv.1,
    fun a => by simp [hv.2]⟩

theorem scaled_site {s : St K} (hk : s.KeysNodup) (hs : s.NoShare) (x : Atom → K) :
    Scaled s (s.onSite.foldl (wr x) s) (fun _ => 1) x := by
  have hf := foldl_wr_frame x s.onSite s
  have hv := foldl_wr_site hk hs x
  exact ⟨hf.2, (congrArg Ham.atoms hf.1 :), (congrArg Ham.exch hf.1 :), (congrArg Ham.onSite hf.1 :),
    (congrArg Ham.dc hf.1 :), (congrArg Ham.spin hf.1 :), (congrArg Ham.dist hf.1 :),
    fun a => by simp [hv.2], hv.1⟩

/-- Factor of one atom in `spin_normalized.setter`. -/
def snW (sp : Atom → K) (old : Option Bool) (new : Bool) (a : Atom) : K :=
  match old with
  | none => 1
  | some o => weight o sp a / weight new sp a

/-- Factor in the setters of the factors. -/
def efW (old : Option K) (new : K) : K :=
  match old with
  | none => 1
  | some o => o / new

theorem spinProd_spins {s t : St K} (h : t.toHam = s.toHam) {sp : Atom → K} (hs : s.Spins sp) {a b : Atom}
    (ha : a ∈ s.atoms) (hb : b ∈ s.atoms) : t.spinProd a b = .ok (sp a * sp b) := by
  have e : t.spin = s.spin := congrArg Ham.spin h
  simp [spinProd, spinOf, e, (hs a ha).1, (hs b hb).1]

/-- `spin_normalized.setter` on a Hamiltonian whose atoms have spins. -/
theorem setSN_scaled {s : St K} (hk : s.KeysNodup) (hr : s.Refer) (hs : s.NoShare) {sp : Atom → K}
    (hsp : s.Spins sp) (new : Bool) :
    ∃ t, s.setSN new = .ok t ∧
      Scaled s t (fun b => snW sp s.sn new b.1 * snW sp s.sn new b.2.1)
        (fun a => snW sp s.sn new a * snW sp s.sn new a) ∧
      t.sn = some new ∧ t.ef = s.ef ∧ t.osf = s.osf := by
  have two : ∀ (c : Bond → St K → Except PyErr K) (d : Atom → St K → Except PyErr K) (x : Bond → K) (y : Atom → K),
      (∀ b ∈ s.exch.keys, ∀ t : St K, t.toHam = s.toHam → c b t = .ok (x b)) →
      (∀ a ∈ s.onSite.keys, ∀ t : St K, t.toHam = s.toHam → d a t = .ok (y a)) →
      ∃ t, (s.scaleExch c).andThen (scaleSite d) = .ok t ∧ Scaled s t x y ∧ t.ef = s.ef ∧ t.osf = s.osf := by
    intro c d x y hc hd
    have hf := foldl_wr_frame x s.exch s
    have h1 := scaled_exch hk hs x
    set t := s.exch.foldl (wr x) s with ht
    have hkt : t.KeysNodup := h1.keysNodup hk
    have hst : t.NoShare := hs.congr hf.1
    have hf2 := foldl_wr_frame y t.onSite t
    refine ⟨t.onSite.foldl (wr y) t, ?_, ?_, ?_, ?_⟩
    · rw [scaleExch_ok hk.exch x hc, Res.ok_andThen, scaleSite_ok hkt.site y]
      intro a ha u hu
      rw [h1.onSite] at ha
      exact hd a ha u (hu.trans hf.1)
    · refine (h1.trans (scaled_site hkt hst y)).congr_factors ?_ ?_ <;> simp
    · rw [(congrArg Ham.ef hf2.1 :), (congrArg Ham.ef hf.1 :)]
    · rw [(congrArg Ham.osf hf2.1 :), (congrArg Ham.osf hf.1 :)]
  have fin : ∀ (t : St K) (x y), Scaled s t x y → Scaled s { t with sn := some new } x y := fun t x y h =>
    ⟨h.next, h.atoms, h.exch, h.onSite, h.dc, h.spin, h.dist, h.valE, h.valO⟩
  have same : ∀ o, s.sn = some o → o = new → Scaled s { s with sn := some new }
      (fun b => snW sp s.sn new b.1 * snW sp s.sn new b.2.1) (fun a => snW sp s.sn new a * snW sp s.sn new a) := by
    intro o ho e
    subst e
    have hw : ∀ a ∈ s.atoms, weight o sp a / weight o sp a = 1 := fun a ha => by
      refine div_self ?_
      unfold weight
      split_ifs
      · exact one_ne_zero
      · exact (hsp a ha).2
    refine (fin s _ _ (Scaled.refl s)).congr_factors (fun b hb => ?_) (fun a ha => ?_)
    · simp only [snW, ho, hw b.1 (hr.exch b hb).1, hw b.2.1 (hr.exch b hb).2, mul_one]
    · simp only [snW, ho, hw a (hr.site a ha), mul_one]
  cases hsn : s.sn with
  | none =>
    refine ⟨{ s with sn := some new }, ?_, ?_, rfl, rfl, rfl⟩
    · simp [setSN, hsn]
    · refine (fin s _ _ (Scaled.refl s)).congr_factors ?_ ?_ <;> simp [snW]
  | some o =>
    cases o <;> cases new
    · refine ⟨{ s with sn := some false }, ?_, ?_, rfl, rfl, rfl⟩
      · simp [setSN, hsn]
      · have := same false hsn rfl
        rw [hsn] at this
        exact this
    · obtain ⟨t, h1, h2, h3, h4⟩ := two (fun b t => t.spinProd b.1 b.2.1) (fun a t => t.spinProd a a)
        (fun b => sp b.1 * sp b.2.1) (fun a => sp a * sp a)
        (fun b hb t ht => spinProd_spins ht hsp (hr.exch b hb).1 (hr.exch b hb).2)
        (fun a ha t ht => spinProd_spins ht hsp (hr.site a ha) (hr.site a ha))
      refine ⟨{ t with sn := some true }, ?_, ?_, rfl, h3, h4⟩
      · simp [setSN, hsn, h1]
      · refine (fin t _ _ h2).congr_factors ?_ ?_ <;> simp [snW, weight]
    · obtain ⟨t, h1, h2, h3, h4⟩ := two (fun b t => (t.spinProd b.1 b.2.1).map fun x => x⁻¹)
        (fun a t => (t.spinProd a a).map fun x => x⁻¹)
        (fun b => (sp b.1 * sp b.2.1)⁻¹) (fun a => (sp a * sp a)⁻¹)
        (fun b hb t ht => by rw [spinProd_spins ht hsp (hr.exch b hb).1 (hr.exch b hb).2]; rfl)
        (fun a ha t ht => by rw [spinProd_spins ht hsp (hr.site a ha) (hr.site a ha)]; rfl)
      refine ⟨{ t with sn := some false }, ?_, ?_, rfl, h3, h4⟩
      · simp [setSN, hsn, h1]
      · refine (fin t _ _ h2).congr_factors ?_ ?_ <;> intros <;> simp [snW, weight, mul_comm]
    · refine ⟨{ s with sn := some true }, ?_, ?_, rfl, rfl, rfl⟩
      · simp [setSN, hsn]
      · have := same true hsn rfl
        rw [hsn] at this
        exact this

variable [DecidableEq K]

/-- `exchange_factor.setter` with a non-zero value. -/
theorem setEF_scaled {s : St K} (hk : s.KeysNodup) (hs : s.NoShare) {new : K} (hn : new ≠ 0) :
    ∃ t, s.setEF new = .ok t ∧ Scaled s t (fun _ => efW s.ef new) (fun _ => 1) ∧
      t.sn = s.sn ∧ t.ef = some new ∧ t.osf = s.osf := by
  have fin : ∀ (t : St K) (x y), Scaled s t x y → Scaled s { t with ef := some new } x y := fun t x y h =>
    ⟨h.next, h.atoms, h.exch, h.onSite, h.dc, h.spin, h.dist, h.valE, h.valO⟩
  cases h : s.ef with
  | none =>
    refine ⟨{ s with ef := some new }, by simp [setEF, h], ?_, rfl, rfl, rfl⟩
    exact fin s _ _ (Scaled.refl s)
  | some old =>
    by_cases hon : old = new
    · subst hon
      refine ⟨{ s with ef := some old }, by simp [setEF, h], ?_, rfl, rfl, rfl⟩
      refine (fin s _ _ (Scaled.refl s)).congr_factors ?_ ?_ <;> simp [efW, hn]
    · have hf := foldl_wr_frame (fun _ : Bond => old / new) s.exch s
      refine ⟨{ (s.exch.foldl (wr fun _ => old / new) s) with ef := some new }, ?_, ?_, ?_, rfl, ?_⟩
      · simp only [setEF, h, ne_eq, hon, not_false_eq_true, if_true]
        rw [scaleExch_ok hk.exch (fun _ => old / new) (fun b hb t ht => by simp [ratio, hn])]
        rfl
      · exact fin _ _ _ (scaled_exch hk hs _)
      · exact (congrArg Ham.sn hf.1 :)
      · exact (congrArg Ham.osf hf.1 :)

/-- `on_site_factor.setter` with a non-zero value. -/
theorem setOF_scaled {s : St K} (hk : s.KeysNodup) (hs : s.NoShare) {new : K} (hn : new ≠ 0) :
    ∃ t, s.setOF new = .ok t ∧ Scaled s t (fun _ => 1) (fun _ => efW s.osf new) ∧
      t.sn = s.sn ∧ t.ef = s.ef ∧ t.osf = some new := by
  have fin : ∀ (t : St K) (x y), Scaled s t x y → Scaled s { t with osf := some new } x y := fun t x y h =>
    ⟨h.next, h.atoms, h.exch, h.onSite, h.dc, h.spin, h.dist, h.valE, h.valO⟩
  cases h : s.osf with
  | none =>
    refine ⟨{ s with osf := some new }, by simp [setOF, h], ?_, rfl, rfl, rfl⟩
    exact fin s _ _ (Scaled.refl s)
  | some old =>
    by_cases hon : old = new
    · subst hon
      refine ⟨{ s with osf := some old }, by simp [setOF, h], ?_, rfl, rfl, rfl⟩
      refine (fin s _ _ (Scaled.refl s)).congr_factors ?_ ?_ <;> simp [efW, hn]
    · have hf := foldl_wr_frame (fun _ : Atom => old / new) s.onSite s
      refine ⟨{ (s.onSite.foldl (wr fun _ => old / new) s) with osf := some new }, ?_, ?_, ?_, ?_, rfl⟩
      · simp only [setOF, h, ne_eq, hon, not_false_eq_true, if_true]
        rw [scaleSite_ok hk.site (fun _ => old / new) (fun b hb t ht => by simp [ratio, hn])]
        rfl
      · exact fin _ _ _ (scaled_site hk hs _)
      · exact (congrArg Ham.sn hf.1 :)
      · exact (congrArg Ham.ef hf.1 :)

end St
end Magnopy
