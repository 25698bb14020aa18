import Verif.Lemmas.HamNotationDC
import Verif.Lemmas.HamHist
import Verif.Spec.Notation
import Mathlib.Tactic.Ring
import Mathlib.Tactic.LinearCombination
import Mathlib.Algebra.CharZero.Defs

/-!
# Sequences of assignments to the notation
-/

set_option autoImplicit false

set_option linter.unusedSectionVars false

namespace Magnopy

open PyDict

variable {K : Type*} [Field K]

namespace St

theorem getNotation_ok_iff {s : St K} {d n : Bool} {e o : K} :
    s.getNotation = .ok (d, n, e, o) ↔ s.dc = some d ∧ s.sn = some n ∧ s.ef = some e ∧ s.osf = some o := by
  unfold getNotation
  cases s.dc <;> cases s.sn <;> cases s.ef <;> cases s.osf <;> simp

theorem setNotation_means [DecidableEq K] (s : St K) (a : NotationArg K) :
    (∃ d n e o, a.Means (d, n, e, o) ∧ s.setNotation a = s.setFour d n e o ∧
        ∀ q, a.Means q → q = (d, n, e, o)) ∨
      ((∀ q, ¬ a.Means q) ∧ s.setNotation a = .raise s .valueError) := by
  cases a with
  | str n =>
    by_cases h1 : n.toLower = "magnopy"
    · refine Or.inl ⟨true, false, 1 / 2, 1, Or.inl ⟨h1, rfl⟩, ?_, ?_⟩
      · simp [setNotation, predefined, h1]
      · rintro q (h | h | h | h) <;> first | exact h.2 | (rw [h1] at h; exact absurd h.1 (by decide))
    by_cases h2 : n.toLower = "tb2j"
    · refine Or.inl ⟨true, true, -1, -1, Or.inr (Or.inl ⟨h2, rfl⟩), ?_, ?_⟩
      · simp [setNotation, predefined, h2]
      · rintro q (h | h | h | h) <;> first | exact h.2 | (rw [h2] at h; exact absurd h.1 (by decide))
    by_cases h3 : n.toLower = "spinw"
    · refine Or.inl ⟨true, false, 1, 1, Or.inr (Or.inr (Or.inl ⟨h3, rfl⟩)), ?_, ?_⟩
      · simp [setNotation, predefined, h3]
      · rintro q (h | h | h | h) <;> first | exact h.2 | (rw [h3] at h; exact absurd h.1 (by decide))
    by_cases h4 : n.toLower = "vampire"
    · refine Or.inl ⟨true, true, -(1 / 2), -1, Or.inr (Or.inr (Or.inr ⟨h4, rfl⟩)), ?_, ?_⟩
      · simp [setNotation, predefined, h4, neg_div]
      · rintro q (h | h | h | h) <;> first | exact h.2 | (rw [h4] at h; exact absurd h.1 (by decide))
    · refine Or.inr ⟨fun q => ?_, by simp [setNotation, predefined, h1, h2, h3, h4]⟩
      rintro (h | h | h | h)
      exacts [h1 h.1, h2 h.1, h3 h.1, h4 h.1]
  | other => exact Or.inr ⟨fun _ h => h, rfl⟩
  | seq xs =>
    have hne : ∀ x : K, (decide (x ≠ 0) = true ↔ x ≠ 0) := fun x => by simp
    have bool : ∀ (p q : Bool) (P : Prop), (p = true ↔ P) → (q = true ↔ P) → p = q := by
      intro p q P h1 h2
      rw [Bool.eq_iff_iff, h1, h2]
    match xs with
    | [d, n, e] =>
      refine Or.inl ⟨decide (d ≠ 0), decide (n ≠ 0), e, e, ⟨d, n, hne d, hne n, Or.inl ⟨rfl, rfl⟩⟩, rfl, ?_⟩
      rintro ⟨d', n', e', o'⟩ ⟨x, y, h1, h2, ⟨h3, h4⟩ | h3⟩
      · simp only [List.cons.injEq, and_true] at h3
        obtain ⟨rfl, rfl, rfl⟩ := h3
        subst h4
        rw [bool d' _ _ h1 (hne _), bool n' _ _ h2 (hne _)]
      · simp at h3
    | [d, n, e, o] =>
      refine Or.inl ⟨decide (d ≠ 0), decide (n ≠ 0), e, o, ⟨d, n, hne d, hne n, Or.inr rfl⟩, rfl, ?_⟩
      rintro ⟨d', n', e', o'⟩ ⟨x, y, h1, h2, ⟨h3, h4⟩ | h3⟩
      · simp at h3
      · simp only [List.cons.injEq, and_true] at h3
        obtain ⟨rfl, rfl, rfl, rfl⟩ := h3
        rw [bool d' _ _ h1 (hne _), bool n' _ _ h2 (hne _)]
    | [] => exact Or.inr ⟨by rintro q ⟨x, y, h1, h2, ⟨h3, _⟩ | h3⟩ <;> simp at h3, rfl⟩
    | [_] => exact Or.inr ⟨by rintro q ⟨x, y, h1, h2, ⟨h3, _⟩ | h3⟩ <;> simp at h3, rfl⟩
    | [_, _] => exact Or.inr ⟨by rintro q ⟨x, y, h1, h2, ⟨h3, _⟩ | h3⟩ <;> simp at h3, rfl⟩
    | _ :: _ :: _ :: _ :: _ :: _ =>
      exact Or.inr ⟨by rintro q ⟨x, y, h1, h2, ⟨h3, _⟩ | h3⟩ <;> simp at h3, rfl⟩

/-! ### Values independent of the notation -/

/-- The value of a pair of atoms, read in one direction: the stored one, or the transpose of the one
stored in the other direction. -/
def oneE (s : St K) (b : Bond) : Option (M3 K) := (s.valE b).or ((s.valE b.mirror).map Matrix.transpose)

theorem isSome_oneE_iff {s : St K} {b : Bond} : (s.oneE b).isSome ↔ b ∈ s.exch.keys ∨ b.mirror ∈ s.exch.keys := by
  rw [← isSome_valE_iff, ← isSome_valE_iff, oneE]
  cases s.valE b <;> cases s.valE b.mirror <;> simp

theorem oneE_of_some {s : St K} {b : Bond} {m : M3 K} (h : s.valE b = some m) : s.oneE b = some m := by
  simp [oneE, h]

theorem some_of_oneE {s : St K} {b : Bond} {m : M3 K} (h : s.oneE b = some m) :
    s.valE b = some m ∨ s.valE b.mirror = some m.transpose := by
  unfold oneE at h
  cases hb : s.valE b with
  | some m' => rw [hb] at h; exact Or.inl h
  | none =>
    rw [hb, Option.none_or] at h
    obtain ⟨m', h1, rfl⟩ := Option.map_eq_some_iff.1 h
    exact Or.inr (by rw [h1, Matrix.transpose_transpose])

theorem Paired.oneE_mirror {s : St K} (hs : s.Paired) {d : Bool} (hd : s.dc = some d) (b : Bond) :
    s.oneE b.mirror = (s.oneE b).map Matrix.transpose := by
  unfold oneE
  rw [Bond.mirror_mirror]
  cases d with
  | true => rw [hs.twice hd]; cases s.valE b <;> simp [Matrix.transpose_transpose]
  | false =>
    by_cases hb : b ∈ s.exch.keys
    · rw [valE_eq_none_iff.2 (hs.single hd b hb)]
      cases s.valE b <;> simp
    · rw [valE_eq_none_iff.2 hb]
      cases s.valE b.mirror <;> simp [Matrix.transpose_transpose]

theorem Paired.keeps_mirror {s : St K} (hs : s.Paired) {b : Bond} (hb : b ∈ s.exch.keys ∨ b.mirror ∈ s.exch.keys) :
    keeps b.mirror = !keeps b := by
  rcases hb with hb | hb
  · exact Magnopy.keeps_mirror (hs.noSelf b hb) (hs.index _ (hs.refer.exch b hb).1 _ (hs.refer.exch b hb).2)
  · have := Magnopy.keeps_mirror (hs.noSelf _ hb) (hs.index _ (hs.refer.exch _ hb).1 _ (hs.refer.exch _ hb).2)
    rw [Bond.mirror_mirror] at this
    rw [this, Bool.not_not]

theorem WellFormed.oneE {s : St K} (hs : s.WellFormed) {d : Bool} (hd : s.dc = some d) {b : Bond} (hk : keeps b = true) :
    s.oneE b = s.valE b := by
  unfold St.oneE
  cases d with
  | true => rw [hs.twice hd]; cases s.valE b <;> simp
  | false =>
    have : s.valE b.mirror = none := by
      rw [valE_eq_none_iff]
      intro hm
      have k1 := (keeps_iff _).2 (hs.once hd _ hm)
      rw [hs.paired.keeps_mirror (Or.inr hm), hk] at k1
      cases k1
    rw [this]; simp

/-- The energy matrix of a pair of atoms: the canonical bond in energy units, independent of the
notation. -/
def pairE (s : St K) (sp : Atom → K) (b : Bond) : Option (M3 K) :=
  match s.getNotation with
  | .ok (d, n, e, _) =>
    if keeps b = true then
      (s.oneE b).map fun m => ((if d then 2 else 1) * e * (weight n sp b.1 * weight n sp b.2.1)) • m
    else none
  | .error _ => none

/-- The energy matrix of an on-site term, independent of the notation. -/
def siteE (s : St K) (sp : Atom → K) (a : Atom) : Option (M3 K) :=
  match s.getNotation with
  | .ok (_, n, _, o) => (s.valO a).map fun m => (o * (weight n sp a * weight n sp a)) • m
  | .error _ => none

/-- `t` is a well-formed rewriting of `s` in another notation. -/
structure Renoted (Γ : Type*) [AddCommGroup Γ] [Fintype Γ] (sp : Atom → K) (s t : St K) : Prop where
  wf : t.WellFormed
  spins : t.Spins sp
  complete : t.Complete
  atoms : t.atoms = s.atoms
  pairE : ∀ b, t.pairE sp b = s.pairE sp b
  siteE : ∀ a, t.siteE sp a = s.siteE sp a
  physics : ∀ c : Config K Γ, t.physics c sp = s.physics c sp

variable {Γ : Type*} [AddCommGroup Γ] [Fintype Γ]

theorem Renoted.refl {sp : Atom → K} {s : St K} (h1 : s.WellFormed) (h2 : s.Spins sp) (h3 : s.Complete) :
    Renoted Γ sp s s := ⟨h1, h2, h3, rfl, fun _ => rfl, fun _ => rfl, fun _ => rfl⟩

theorem Renoted.trans {sp : Atom → K} {s t u : St K} (h : Renoted Γ sp s t) (g : Renoted Γ sp t u) :
    Renoted Γ sp s u :=
  ⟨g.wf, g.spins, g.complete, g.atoms.trans h.atoms, fun b => (g.pairE b).trans (h.pairE b),
    fun a => (g.siteE a).trans (h.siteE a), fun c => (g.physics c).trans (h.physics c)⟩

theorem pairE_one {s : St K} {d n e o} (h : s.getNotation = .ok (d, n, e, o)) (sp : Atom → K) (b : Bond) :
    s.pairE sp b = if keeps b = true then
      (s.oneE b).map fun m => ((if d then 2 else 1) * e * (weight n sp b.1 * weight n sp b.2.1)) • m else none := by
  simp [pairE, h]

theorem pairE_eq {s : St K} (hs : s.WellFormed) {d n e o} (h : s.getNotation = .ok (d, n, e, o)) (sp : Atom → K) (b : Bond) :
    s.pairE sp b = if keeps b = true then
      (s.valE b).map fun m => ((if d then 2 else 1) * e * (weight n sp b.1 * weight n sp b.2.1)) • m else none := by
  rw [pairE_one h]
  by_cases hk : keeps b = true
  · rw [hs.oneE (getNotation_ok_iff.1 h).1 hk]
  · rw [if_neg hk, if_neg hk]

theorem siteE_eq {s : St K} {d n e o} (h : s.getNotation = .ok (d, n, e, o)) (sp : Atom → K) (a : Atom) :
    s.siteE sp a = (s.valO a).map fun m => (o * (weight n sp a * weight n sp a)) • m := by
  simp [siteE, h]

theorem physics_eq {s : St K} {d n e o} (h : s.getNotation = .ok (d, n, e, o)) (c : Config K Γ) (sp : Atom → K) :
    s.physics c sp = some (e * c.bonds (weight n sp) s.exchangeItems + o * c.sites (weight n sp) s.onSiteItems) := by
  simp [physics, h, energy, classicalEnergy]

/-- A rescaling that compensates the change of `sn`, `ef`, `osf`. -/
theorem Scaled.renoted {s t : St K} {xe : Bond → K} {xo : Atom → K} (h : Scaled s t xe xo) {sp : Atom → K}
    (hs : s.WellFormed) (hsp : s.Spins sp) (hsym : ∀ b : Bond, xe b.mirror = xe b) {d n n' : Bool} {e o e' o' : K}
    (h1 : s.getNotation = .ok (d, n, e, o)) (h2 : t.getNotation = .ok (d, n', e', o')) (he : e' ≠ 0) (ho : o' ≠ 0)
    (hx : ∀ b ∈ s.exch.keys, e' * (weight n' sp b.1 * weight n' sp b.2.1) * xe b =
      e * (weight n sp b.1 * weight n sp b.2.1))
    (hxo : ∀ a ∈ s.onSite.keys, o' * (weight n' sp a * weight n' sp a) * xo a = o * (weight n sp a * weight n sp a)) :
    Renoted Γ sp s t := by
  refine ⟨h.wellFormed hsym hs, h.spins hsp, ⟨_, _, _, _, h2, he, ho⟩, h.atoms, fun b => ?_, fun a => ?_, fun c => ?_⟩
  · rw [pairE_eq hs h1, pairE_eq (h.wellFormed hsym hs) h2, h.valE]
    by_cases hb : b ∈ s.exch.keys
    · rw [Option.map_map]
      refine if_congr Iff.rfl ?_ rfl
      congr 1
      funext m
      simp only [Function.comp, smul_smul]
      congr 1
      have := hx b hb
      cases d
      · simp only [Bool.false_eq_true, if_false]; linear_combination this
      · simp only [if_true]; linear_combination 2 * this
    · rw [valE_eq_none_iff.2 hb]; rfl
  · rw [siteE_eq h1, siteE_eq h2, h.valO]
    by_cases ha : a ∈ s.onSite.keys
    · rw [Option.map_map]
      congr 1
      funext m
      simp only [Function.comp, smul_smul]
      congr 1
      exact hxo a ha
    · have : s.valO a = none := by simp [St.valO, get?_eq_none_iff.2 ha]
      rw [this]; rfl
  · rw [physics_eq h1, physics_eq h2]
    have e1 := h.bonds hs.keys c (w := weight n sp) (w' := weight n' sp) (y := e / e') (fun b hb => by
      have := hx b hb
      field_simp
      linear_combination this)
    have e2 := h.sites hs.keys c (w := weight n sp) (w' := weight n' sp) (y := o / o') (fun b hb => by
      have := hxo b hb
      field_simp
      linear_combination this)
    rw [e1, e2]
    congr 1
    field_simp

theorem weight_ne {s : St K} {sp : Atom → K} (hs : s.Spins sp) {a : Atom} (ha : a ∈ s.atoms) (n : Bool) :
    weight n sp a ≠ 0 := by
  unfold weight
  split_ifs
  · exact one_ne_zero
  · exact (hs a ha).2

/-- `s.spin_normalized = new`. -/
theorem setSN_renoted {s : St K} {sp : Atom → K} (hs : s.WellFormed) (hsp : s.Spins sp) {d n : Bool} {e o : K}
    (h : s.getNotation = .ok (d, n, e, o)) (he : e ≠ 0) (ho : o ≠ 0) (new : Bool) :
    ∃ t, s.setSN new = .ok t ∧ Renoted Γ sp s t ∧ t.getNotation = .ok (d, new, e, o) := by
  obtain ⟨g1, g2, g3, g4⟩ := getNotation_ok_iff.1 h
  obtain ⟨t, h1, h2, h3, h4, h5⟩ := setSN_scaled hs.keys hs.refer hs.noShare hsp new
  have ht : t.getNotation = .ok (d, new, e, o) :=
    getNotation_ok_iff.2 ⟨h2.dc.trans g1, h3, h4.trans g3, h5.trans g4⟩
  refine ⟨t, h1, h2.renoted hs hsp (fun b => by simp only [Bond.mirror]; ring) h ht he ho (fun b hb => ?_)
    (fun a ha => ?_), ht⟩
  · have w1 := weight_ne hsp (hs.refer.exch b hb).1 new
    have w2 := weight_ne hsp (hs.refer.exch b hb).2 new
    simp only [g2, snW]
    field_simp
  · have w1 := weight_ne hsp (hs.refer.site a ha) new
    simp only [g2, snW]
    field_simp

/-- `s.exchange_factor = new`. -/
theorem setEF_renoted [DecidableEq K] {s : St K} {sp : Atom → K} (hs : s.WellFormed) (hsp : s.Spins sp) {d n : Bool} {e o : K}
    (h : s.getNotation = .ok (d, n, e, o)) (ho : o ≠ 0) {new : K} (hn : new ≠ 0) :
    ∃ t, s.setEF new = .ok t ∧ Renoted Γ sp s t ∧ t.getNotation = .ok (d, n, new, o) := by
  obtain ⟨g1, g2, g3, g4⟩ := getNotation_ok_iff.1 h
  obtain ⟨t, h1, h2, h3, h4, h5⟩ := setEF_scaled hs.keys hs.noShare hn
  have ht : t.getNotation = .ok (d, n, new, o) :=
    getNotation_ok_iff.2 ⟨h2.dc.trans g1, h3.trans g2, h4, h5.trans g4⟩
  refine ⟨t, h1, h2.renoted hs hsp (fun b => rfl) h ht hn ho (fun b hb => ?_) (fun a ha => by ring), ht⟩
  simp only [g3, efW]
  field_simp

/-- `s.on_site_factor = new`. -/
theorem setOF_renoted [DecidableEq K] {s : St K} {sp : Atom → K} (hs : s.WellFormed) (hsp : s.Spins sp) {d n : Bool} {e o : K}
    (h : s.getNotation = .ok (d, n, e, o)) (he : e ≠ 0) {new : K} (hn : new ≠ 0) :
    ∃ t, s.setOF new = .ok t ∧ Renoted Γ sp s t ∧ t.getNotation = .ok (d, n, e, new) := by
  obtain ⟨g1, g2, g3, g4⟩ := getNotation_ok_iff.1 h
  obtain ⟨t, h1, h2, h3, h4, h5⟩ := setOF_scaled hs.keys hs.noShare hn
  have ht : t.getNotation = .ok (d, n, e, new) :=
    getNotation_ok_iff.2 ⟨h2.dc.trans g1, h3.trans g2, h4.trans g3, h5⟩
  refine ⟨t, h1, h2.renoted hs hsp (fun b => rfl) h ht he hn (fun b hb => by ring) (fun a ha => ?_), ht⟩
  simp only [g4, efW]
  field_simp

/-- `s.double_counting = new`. -/
theorem setDC_renoted {s : St K} {sp : Atom → K} (hs : s.WellFormed) (hsp : s.Spins sp) (h2 : (2 : K) ≠ 0)
    {d n : Bool} {e o : K} (h : s.getNotation = .ok (d, n, e, o)) (he : e ≠ 0) (ho : o ≠ 0) (new : Bool) :
    ∃ t, s.setDC new = .ok t ∧ Renoted Γ sp s t ∧ t.getNotation = .ok (new, n, e, o) := by
  obtain ⟨g1, g2, g3, g4⟩ := getNotation_ok_iff.1 h
  obtain ⟨t, h1, hh, hw, _, hv, hv'⟩ := setDC_wf hs g1 new
  have e1 : t.atoms = s.atoms := (congrArg Ham.atoms hh :)
  have e2 : t.spin = s.spin := (congrArg Ham.spin hh :)
  have ht : t.getNotation = .ok (new, n, e, o) :=
    getNotation_ok_iff.2 ⟨(congrArg Ham.dc hh :), (congrArg Ham.sn hh :).trans g2, (congrArg Ham.ef hh :).trans g3,
      (congrArg Ham.osf hh :).trans g4⟩
  refine ⟨t, h1, ⟨hw, ?_, ⟨_, _, _, _, ht, he, ho⟩, e1, fun b => ?_, fun a => ?_, fun c => ?_⟩, ht⟩
  · unfold Spins at *
    rw [e1, e2]; exact hsp
  · rw [pairE_eq hs h, pairE_eq hw ht, hv, dcMap_wf hs g1]
    by_cases hb : keeps b = true
    · simp only [hb, if_true]
      cases d <;> cases new
      · rfl
      · simp only [if_true, Bool.false_eq_true, if_false]
        have : s.valE b.mirror = none := by
          rw [valE_eq_none_iff]
          intro hm
          have k1 := (keeps_iff _).2 (hs.once g1 _ hm)
          have k2 := keeps_mirror (hs.noSelf _ hm) (hs.index _ (hs.refer.exch _ hm).1 _ (hs.refer.exch _ hm).2)
          rw [Bond.mirror_mirror, k1, hb] at k2
          cases k2
        rw [this, Option.map_none, Option.none_or, Option.map_map]
        congr 1
        funext m
        simp only [Function.comp, smul_smul]
        congr 1
        field_simp
      · simp only [if_true, Bool.false_eq_true, if_false]
        rw [Option.map_map]
        congr 1
        funext m
        simp only [Function.comp, smul_smul]
        congr 1
        ring
      · rfl
    · simp [hb]
  · rw [siteE_eq h, siteE_eq ht, hv']
  · rw [physics_eq h, physics_eq ht]
    have e3 : c.sites (weight n sp) t.onSiteItems = c.sites (weight n sp) s.onSiteItems := by
      rw [sites_eq_sum hw.keys, sites_eq_sum hs.keys, (congrArg Ham.onSite hh :)]
      exact Finset.sum_congr rfl fun a _ => by rw [hv']
    rw [setDC_bonds hs hw h2 g1 hv, e3]

/-- `s.double_counting = True`, whichever orientations of the bonds are stored. -/
theorem setDC_on_renoted {s : St K} {sp : Atom → K} (hs : s.Paired) (hsp : s.Spins sp) (h2 : (2 : K) ≠ 0)
    {d n : Bool} {e o : K} (h : s.getNotation = .ok (d, n, e, o)) (he : e ≠ 0) (ho : o ≠ 0) :
    ∃ t, s.setDC true = .ok t ∧ Renoted Γ sp s t ∧ t.getNotation = .ok (true, n, e, o) := by
  obtain ⟨g1, g2, g3, g4⟩ := getNotation_ok_iff.1 h
  cases d with
  | true => exact setDC_renoted (hs.wf_of_true g1) hsp h2 h he ho true
  | false =>
  obtain ⟨t, h1, hh, hw, hv, hv'⟩ := setDC_on hs g1
  have e1 : t.atoms = s.atoms := (congrArg Ham.atoms hh :)
  have e2 : t.spin = s.spin := (congrArg Ham.spin hh :)
  have ht : t.getNotation = .ok (true, n, e, o) :=
    getNotation_ok_iff.2 ⟨(congrArg Ham.dc hh :), (congrArg Ham.sn hh :).trans g2, (congrArg Ham.ef hh :).trans g3,
      (congrArg Ham.osf hh :).trans g4⟩
  refine ⟨t, h1, ⟨hw, ?_, ⟨_, _, _, _, ht, he, ho⟩, e1, fun b => ?_, fun a => ?_, fun c => ?_⟩, ht⟩
  · unfold Spins at *
    rw [e1, e2]; exact hsp
  · rw [pairE_one h, pairE_eq hw ht, hv]
    refine if_congr Iff.rfl ?_ rfl
    have hone : ((s.valE b.mirror).map fun m => (1 / 2 : K) • m.transpose).or ((s.valE b).map fun m => (1 / 2 : K) • m) =
        (s.oneE b).map fun m => (1 / 2 : K) • m := by
      unfold St.oneE
      by_cases hb : b ∈ s.exch.keys
      · rw [valE_eq_none_iff.2 (hs.single g1 b hb)]
        cases s.valE b <;> simp
      · rw [valE_eq_none_iff.2 hb]
        cases s.valE b.mirror <;> simp
    rw [hone, Option.map_map]
    congr 1
    funext m
    simp only [Function.comp, smul_smul, if_true, Bool.false_eq_true, if_false]
    congr 1
    field_simp
  · rw [siteE_eq h, siteE_eq ht, hv']
  · rw [physics_eq h, physics_eq ht]
    have e3 : c.sites (weight n sp) t.onSiteItems = c.sites (weight n sp) s.onSiteItems := by
      rw [sites_eq_sum hw.keys, sites_eq_sum hs.keys, (congrArg Ham.onSite hh :)]
      exact Finset.sum_congr rfl fun a _ => by rw [hv']
    rw [setDC_on_bonds hs hw.keys h2 g1 hv, e3]

/-- Assignment of a notation with double counting, whichever orientations of the bonds are stored. -/
theorem setFour_on_renoted [DecidableEq K] {s : St K} {sp : Atom → K} (hs : s.Paired) (hsp : s.Spins sp)
    (h2 : (2 : K) ≠ 0) (hc : s.Complete) (n : Bool) {e o : K} (he : e ≠ 0) (ho : o ≠ 0) :
    ∃ t, s.setFour true n e o = .ok t ∧ Renoted Γ sp s t ∧ t.getNotation = .ok (true, n, e, o) := by
  obtain ⟨d0, n0, e0, o0, h, he0, ho0⟩ := hc
  obtain ⟨t1, a1, b1, c1⟩ := setDC_on_renoted (Γ := Γ) hs hsp h2 h he0 ho0
  obtain ⟨t2, a2, b2, c2⟩ := setSN_renoted (Γ := Γ) b1.wf b1.spins c1 he0 ho0 n
  obtain ⟨t3, a3, b3, c3⟩ := setEF_renoted (Γ := Γ) b2.wf b2.spins c2 ho0 he
  obtain ⟨t4, a4, b4, c4⟩ := setOF_renoted (Γ := Γ) b3.wf b3.spins c3 he ho
  refine ⟨t4, ?_, ((b1.trans b2).trans b3).trans b4, c4⟩
  simp [setFour, a1, a2, a3, a4]

/-- Assignment of the whole notation. -/
theorem setFour_renoted [DecidableEq K] {s : St K} {sp : Atom → K} (hs : s.WellFormed) (hsp : s.Spins sp)
    (h2 : (2 : K) ≠ 0) (hc : s.Complete) (d n : Bool) {e o : K} (he : e ≠ 0) (ho : o ≠ 0) :
    ∃ t, s.setFour d n e o = .ok t ∧ Renoted Γ sp s t ∧ t.getNotation = .ok (d, n, e, o) := by
  obtain ⟨d0, n0, e0, o0, h, he0, ho0⟩ := hc
  obtain ⟨t1, a1, b1, c1⟩ := setDC_renoted (Γ := Γ) hs hsp h2 h he0 ho0 d
  obtain ⟨t2, a2, b2, c2⟩ := setSN_renoted (Γ := Γ) b1.wf b1.spins c1 he0 ho0 n
  obtain ⟨t3, a3, b3, c3⟩ := setEF_renoted (Γ := Γ) b2.wf b2.spins c2 ho0 he
  obtain ⟨t4, a4, b4, c4⟩ := setOF_renoted (Γ := Γ) b3.wf b3.spins c3 he ho
  refine ⟨t4, ?_, ((b1.trans b2).trans b3).trans b4, c4⟩
  simp [setFour, a1, a2, a3, a4]

/-- One operation that assigns the notation: it either succeeds, or the argument is not a notation,
`ValueError` is raised and nothing happens. -/
theorem step_renoted [LinearOrder K] {s : St K} {sp : Atom → K} (hs : s.WellFormed) (hsp : s.Spins sp)
    (h2 : (2 : K) ≠ 0) (hc : s.Complete) (op : Op K) (hop : op.Renotes) :
    Renoted Γ sp s (op.step s).st ∧ (op.step s).err ∈ [none, some .valueError] := by
  have hc' := hc
  obtain ⟨d0, n0, e0, o0, h, he0, ho0⟩ := hc
  cases op with
  | setDC b =>
    obtain ⟨t, a, r, _⟩ := setDC_renoted (Γ := Γ) hs hsp h2 h he0 ho0 b
    simp only [Op.step, a]; exact ⟨r, by simp⟩
  | setSN b =>
    obtain ⟨t, a, r, _⟩ := setSN_renoted (Γ := Γ) hs hsp h he0 ho0 b
    simp only [Op.step, a]; exact ⟨r, by simp⟩
  | setEF x =>
    obtain ⟨t, a, r, _⟩ := setEF_renoted (Γ := Γ) hs hsp h ho0 (new := x) hop
    simp only [Op.step, a]; exact ⟨r, by simp⟩
  | setOF x =>
    obtain ⟨t, a, r, _⟩ := setOF_renoted (Γ := Γ) hs hsp h he0 (new := x) hop
    simp only [Op.step, a]; exact ⟨r, by simp⟩
  | setNotation a =>
    rcases setNotation_means s a with ⟨d, n, e, o, hm, heq, _⟩ | ⟨_, heq⟩
    · have hz := hop _ hm
      obtain ⟨t, a, r, _⟩ := setFour_renoted (Γ := Γ) hs hsp h2 hc' d n hz.1 hz.2
      simp only [Op.step, heq, a]; exact ⟨r, by simp⟩
    · simp only [Op.step, heq]
      exact ⟨Renoted.refl hs hsp hc', by simp⟩
  | _ => exact absurd hop (by simp [Op.Renotes])

theorem run_renoted [LinearOrder K] {sp : Atom → K} (h2 : (2 : K) ≠ 0) (ops : List (Op K)) (hop : ∀ o ∈ ops, o.Renotes)
    {s : St K} (hs : s.WellFormed) (hsp : s.Spins sp) (hc : s.Complete) : Renoted Γ sp s (runOps ops s) := by
  induction ops generalizing s with
  | nil => exact Renoted.refl hs hsp hc
  | cons o os ih =>
    have h := (step_renoted (Γ := Γ) hs hsp h2 hc o (hop o (by simp))).1
    exact h.trans (ih (fun o ho => hop o (by simp [ho])) h.wf h.spins h.complete)

/-- Two well-formed Hamiltonians in the same notation with the same energy matrices store the same values. -/
theorem smul_injective {x : K} (hx : x ≠ 0) : Function.Injective fun m : M3 K => x • m := fun a b hab => by
  have : x⁻¹ • (x • a) = x⁻¹ • (x • b) := congrArg (x⁻¹ • ·) hab
  rwa [smul_smul, smul_smul, inv_mul_cancel₀ hx, one_smul, one_smul] at this

theorem valO_of_siteE {s t : St K} {sp : Atom → K} (hs : s.Refer) (ht : t.Refer) (hsp : s.Spins sp)
    (hat : t.atoms = s.atoms) {d n : Bool} {e o : K} (h : s.getNotation = .ok (d, n, e, o))
    (h' : t.getNotation = .ok (d, n, e, o)) (ho : o ≠ 0) (hq : ∀ a, t.siteE sp a = s.siteE sp a) (a : Atom) :
    t.valO a = s.valO a := by
  have hq := hq a
  rw [siteE_eq h, siteE_eq h'] at hq
  by_cases hm : a ∈ s.onSite.keys ∨ a ∈ t.onSite.keys
  · have hin : a ∈ s.atoms := by
      rcases hm with hm | hm
      · exact hs.site a hm
      · rw [← hat]; exact ht.site a hm
    refine Option.map_injective (smul_injective ?_) hq
    exact mul_ne_zero ho (mul_ne_zero (weight_ne hsp hin n) (weight_ne hsp hin n))
  · rw [not_or] at hm
    simp [valO, get?_eq_none_iff.2 hm.1, get?_eq_none_iff.2 hm.2]

theorem values_of_pairE {s t : St K} {sp : Atom → K} (hs : s.WellFormed) (ht : t.WellFormed) (hsp : s.Spins sp)
    (hat : t.atoms = s.atoms) (h2 : (2 : K) ≠ 0) {d n : Bool} {e o : K} (h : s.getNotation = .ok (d, n, e, o))
    (h' : t.getNotation = .ok (d, n, e, o)) (he : e ≠ 0) (ho : o ≠ 0) (hp : ∀ b, t.pairE sp b = s.pairE sp b)
    (hq : ∀ a, t.siteE sp a = s.siteE sp a) : (∀ b, t.valE b = s.valE b) ∧ ∀ a, t.valO a = s.valO a := by
  have key : ∀ b, keeps b = true → t.valE b = s.valE b := by
    intro b hb
    have hp := hp b
    rw [pairE_eq hs h, pairE_eq ht h', if_pos hb, if_pos hb] at hp
    by_cases hm : b ∈ s.exch.keys ∨ b ∈ t.exch.keys
    · have hin : b.1 ∈ s.atoms ∧ b.2.1 ∈ s.atoms := by
        rcases hm with hm | hm
        · exact hs.refer.exch b hm
        · rw [← hat]; exact ht.refer.exch b hm
      refine Option.map_injective (smul_injective ?_) hp
      refine mul_ne_zero (mul_ne_zero ?_ he) (mul_ne_zero (weight_ne hsp hin.1 n) (weight_ne hsp hin.2 n))
      split_ifs
      · exact h2
      · exact one_ne_zero
    · rw [not_or] at hm
      rw [valE_eq_none_iff.2 hm.1, valE_eq_none_iff.2 hm.2]
  have g1 := (getNotation_ok_iff.1 h).1
  have g1' := (getNotation_ok_iff.1 h').1
  have sub : ∀ u v : St K, u.WellFormed → v.WellFormed → u.dc = some d → v.dc = some d →
      (∀ b, keeps b = true → u.valE b = v.valE b) → ∀ b, b ∈ u.exch.keys → u.valE b = v.valE b := by
    intro u v hu hv gu gv hkey b hb
    cases hkb : keeps b with
    | true => exact hkey b hkb
    | false =>
      cases d with
      | false =>
        have := (keeps_iff b).2 (hu.once gu b hb)
        rw [hkb] at this; cases this
      | true =>
        have k : keeps b.mirror = true := by
          rw [keeps_mirror (hu.noSelf b hb) (hu.index _ (hu.refer.exch b hb).1 _ (hu.refer.exch b hb).2), hkb]; rfl
        have e1 := hu.twice gu b.mirror
        have e2 := hv.twice gv b.mirror
        rw [Bond.mirror_mirror] at e1 e2
        rw [e1, e2, hkey _ k]
  constructor
  · intro b
    by_cases hb : b ∈ t.exch.keys
    · exact sub t s ht hs g1' g1 key b hb
    · by_cases hb' : b ∈ s.exch.keys
      · exact (sub s t hs ht g1 g1' (fun b hb => (key b hb).symm) b hb').symm
      · rw [valE_eq_none_iff.2 hb, valE_eq_none_iff.2 hb']
  · exact valO_of_siteE hs.refer ht.refer hsp hat h h' ho hq

/-- The same if bonds are counted once in either orientation at the start: at the end they are in the canonical one. -/
theorem values_of_pairE_paired {s t : St K} {sp : Atom → K} (hs : s.Paired) (ht : t.WellFormed) (hsp : s.Spins sp)
    (hat : t.atoms = s.atoms) (h2 : (2 : K) ≠ 0) {d n : Bool} {e o : K} (h : s.getNotation = .ok (d, n, e, o))
    (h' : t.getNotation = .ok (d, n, e, o)) (he : e ≠ 0) (ho : o ≠ 0) (hp : ∀ b, t.pairE sp b = s.pairE sp b)
    (hq : ∀ a, t.siteE sp a = s.siteE sp a) :
    (∀ b, t.valE b = if d = true then s.valE b else if keeps b = true then s.oneE b else none) ∧
      ∀ a, t.valO a = s.valO a := by
  refine ⟨fun b => ?_, valO_of_siteE hs.refer ht.refer hsp hat h h' ho hq⟩
  have g1 := (getNotation_ok_iff.1 h).1
  have g1' := (getNotation_ok_iff.1 h').1
  cases d with
  | true => rw [if_pos rfl]; exact (values_of_pairE (hs.wf_of_true g1) ht hsp hat h2 h h' he ho hp hq).1 b
  | false =>
    rw [if_neg Bool.false_ne_true]
    by_cases hb : keeps b = true
    · rw [if_pos hb]
      have hp := hp b
      rw [pairE_one h, pairE_eq ht h', if_pos hb, if_pos hb] at hp
      by_cases hm : (b ∈ s.exch.keys ∨ b.mirror ∈ s.exch.keys) ∨ b ∈ t.exch.keys
      · have hin : b.1 ∈ s.atoms ∧ b.2.1 ∈ s.atoms := by
          rcases hm with (hm | hm) | hm
          · exact hs.refer.exch b hm
          · exact (hs.refer.exch _ hm).symm
          · rw [← hat]; exact ht.refer.exch b hm
        refine Option.map_injective (smul_injective ?_) hp
        refine mul_ne_zero (mul_ne_zero ?_ he) (mul_ne_zero (weight_ne hsp hin.1 n) (weight_ne hsp hin.2 n))
        simp
      · rw [not_or, not_or] at hm
        rw [valE_eq_none_iff.2 hm.2, oneE, valE_eq_none_iff.2 hm.1.1, valE_eq_none_iff.2 hm.1.2]
        rfl
    · rw [if_neg hb, valE_eq_none_iff]
      exact fun hm => hb ((keeps_iff b).2 (ht.once g1' b hm))

/-! ### Flags -/

/-- `add_exchange` and `remove_exchange` do not touch the notation. -/
theorem addExchange_flags (x y : AtomArg) (R : Cell) (p : ParamArg K) (s : St K) :
    (s.addExchange x y R p).st.dc = s.dc ∧ (s.addExchange x y R p).st.sn = s.sn ∧
      (s.addExchange x y R p).st.ef = s.ef ∧ (s.addExchange x y R p).st.osf = s.osf := by
  unfold addExchange
  cases h1 : s.findOrAdd x with
  | error e => exact ⟨rfl, rfl, rfl, rfl⟩
  | ok q =>
    obtain ⟨s1, a⟩ := q
    obtain ⟨_, l1, rfl⟩ := findOrAdd_spec h1
    simp only
    cases h2 : ({ s with atoms := s.atoms ++ l1 } : St K).findOrAdd y with
    | error e => exact ⟨rfl, rfl, rfl, rfl⟩
    | ok q =>
      obtain ⟨s2, b⟩ := q
      obtain ⟨_, l2, rfl⟩ := findOrAdd_spec h2
      simp only
      have hp := fun u : St K => fun r => putBond_frame u (a, b, R) r
      cases p with
      | obj r =>
        have := hp { s with atoms := s.atoms ++ l1 ++ l2 } r
        exact ⟨this.2.2.1, this.2.2.2.1, this.2.2.2.2.1, this.2.2.2.2.2.1⟩
      | fresh m =>
        have := hp (({ s with atoms := s.atoms ++ l1 ++ l2 } : St K).alloc m).1 (({ s with atoms := s.atoms ++ l1 ++ l2 } : St K).alloc m).2
        exact ⟨this.2.2.1, this.2.2.2.1, this.2.2.2.2.1, this.2.2.2.2.2.1⟩

end St
end Magnopy

namespace Magnopy

variable {K : Type*} [Field K]

theorem Res.andThen_ok {σ : Type*} {r : Res σ} {f : σ → Res σ} (h : (r.andThen f).err = none) :
    r.err = none ∧ (f r.st).err = none ∧ r.andThen f = f r.st := by
  unfold Res.andThen at *
  cases hr : r.err with
  | none => rw [hr] at h; exact ⟨rfl, h, rfl⟩
  | some e => rw [hr] at h; simp only at h; rw [hr] at h; cases h

namespace St

theorem removeExchange_flags (x y : AtomArg) (R : Cell) (f : Bool) (s : St K) :
    (s.removeExchange x y R f).st.dc = s.dc ∧ (s.removeExchange x y R f).st.sn = s.sn ∧
      (s.removeExchange x y R f).st.ef = s.ef ∧ (s.removeExchange x y R f).st.osf = s.osf := by
  unfold removeExchange
  split
  · exact ⟨rfl, rfl, rfl, rfl⟩
  · split
    · exact ⟨rfl, rfl, rfl, rfl⟩
    · next a _ _ b _ =>
        have := (dropBond_frame s (a, b, R) f).2
        exact ⟨(congrArg Ham.dc this :), (congrArg Ham.sn this :), (congrArg Ham.ef this :), (congrArg Ham.osf this :)⟩

/-- `double_counting.setter` sets the flag (also if it raises) and leaves the others. -/
theorem setDC_flags (new : Bool) (s : St K) :
    (s.setDC new).st.dc = some new ∧ (s.setDC new).st.sn = s.sn ∧ (s.setDC new).st.ef = s.ef ∧
      (s.setDC new).st.osf = s.osf := by
  have P0 : ∀ t : St K, t.toHam = { s.toHam with dc := some new } →
      t.dc = some new ∧ t.sn = s.sn ∧ t.ef = s.ef ∧ t.osf = s.osf := fun t h =>
    ⟨(congrArg Ham.dc h :), (congrArg Ham.sn h :), (congrArg Ham.ef h :), (congrArg Ham.osf h :)⟩
  unfold setDC
  refine Res.andThen_inv (P := fun t : St K => t.dc = some new ∧ t.sn = s.sn ∧ t.ef = s.ef ∧ t.osf = s.osf) ?_ ?_
  · split_ifs
    · exact P0 _ (scaleExch_toHam _ _).1
    · exact P0 _ (scaleExch_toHam _ _).1
    · exact P0 _ rfl
  · intro t ht
    cases new with
    | true =>
      simp only [if_true, ensureDC]
      refine forEach_inv (P := fun t : St K => t.dc = some true ∧ t.sn = s.sn ∧ t.ef = s.ef ∧ t.osf = s.osf)
        (fun p u hu => ?_) _ _ ?_
      · have := addExchange_flags (.atom p.1.1) (.atom p.1.2.1) p.1.2.2 (.obj p.2) u
        exact ⟨this.1.trans hu.1, this.2.1.trans hu.2.1, this.2.2.1.trans hu.2.2.1, this.2.2.2.trans hu.2.2.2⟩
      · have h := (collectMirrors_spec t.exch t).1
        exact ⟨(congrArg Ham.dc h :).trans ht.1, (congrArg Ham.sn h :).trans ht.2.1, (congrArg Ham.ef h :).trans ht.2.2.1,
          (congrArg Ham.osf h :).trans ht.2.2.2⟩
    | false =>
      simp only [Bool.false_eq_true, if_false, ensureNoDC]
      split
      · exact ht
      · refine forEach_inv (P := fun t : St K => t.dc = some false ∧ t.sn = s.sn ∧ t.ef = s.ef ∧ t.osf = s.osf)
          (fun b u hu => ?_) _ _ ht
        have := removeExchange_flags (.atom b.1) (.atom b.2.1) b.2.2 false u
        exact ⟨this.1.trans hu.1, this.2.1.trans hu.2.1, this.2.2.1.trans hu.2.2.1, this.2.2.2.trans hu.2.2.2⟩

theorem setSN_flags (new : Bool) (s : St K) (h : (s.setSN new).err = none) :
    (s.setSN new).st.dc = s.dc ∧ (s.setSN new).st.sn = some new ∧ (s.setSN new).st.ef = s.ef ∧
      (s.setSN new).st.osf = s.osf := by
  have key : ∀ r : Res (St K), r.st.toHam = s.toHam →
      (r.andThen fun t => Res.ok { t with sn := some new }).err = none →
      (r.andThen fun t => Res.ok { t with sn := some new }).st.dc = s.dc ∧ (r.andThen fun t => Res.ok { t with sn := some new }).st.sn = some new ∧ (r.andThen fun t => Res.ok { t with sn := some new }).st.ef = s.ef ∧ (r.andThen fun t => Res.ok { t with sn := some new }).st.osf = s.osf := by
    intro r hr h
    rw [(Res.andThen_ok h).2.2]
    exact ⟨(congrArg Ham.dc hr :), rfl, (congrArg Ham.ef hr :), (congrArg Ham.osf hr :)⟩
  refine key _ ?_ h
  split_ifs
  · exact Res.andThen_inv (P := fun t : St K => t.toHam = s.toHam) (scaleExch_toHam _ _).1
      (fun t ht => (scaleSite_toHam _ _).1.trans ht)
  · exact Res.andThen_inv (P := fun t : St K => t.toHam = s.toHam) (scaleExch_toHam _ _).1
      (fun t ht => (scaleSite_toHam _ _).1.trans ht)
  · rfl

theorem setEF_flags [DecidableEq K] (new : K) (s : St K) (h : (s.setEF new).err = none) :
    (s.setEF new).st.dc = s.dc ∧ (s.setEF new).st.sn = s.sn ∧ (s.setEF new).st.ef = some new ∧
      (s.setEF new).st.osf = s.osf := by
  have key : ∀ r : Res (St K), r.st.toHam = s.toHam →
      (r.andThen fun t => Res.ok { t with ef := some new }).err = none →
      (r.andThen fun t => Res.ok { t with ef := some new }).st.dc = s.dc ∧ (r.andThen fun t => Res.ok { t with ef := some new }).st.sn = s.sn ∧ (r.andThen fun t => Res.ok { t with ef := some new }).st.ef = some new ∧ (r.andThen fun t => Res.ok { t with ef := some new }).st.osf = s.osf := by
    intro r hr h
    rw [(Res.andThen_ok h).2.2]
    exact ⟨(congrArg Ham.dc hr :), (congrArg Ham.sn hr :), rfl, (congrArg Ham.osf hr :)⟩
  refine key _ ?_ h
  split
  · split_ifs
    · exact (scaleExch_toHam _ _).1
    · rfl
  · rfl

theorem setOF_flags [DecidableEq K] (new : K) (s : St K) (h : (s.setOF new).err = none) :
    (s.setOF new).st.dc = s.dc ∧ (s.setOF new).st.sn = s.sn ∧ (s.setOF new).st.ef = s.ef ∧
      (s.setOF new).st.osf = some new := by
  have key : ∀ r : Res (St K), r.st.toHam = s.toHam →
      (r.andThen fun t => Res.ok { t with osf := some new }).err = none →
      (r.andThen fun t => Res.ok { t with osf := some new }).st.dc = s.dc ∧ (r.andThen fun t => Res.ok { t with osf := some new }).st.sn = s.sn ∧ (r.andThen fun t => Res.ok { t with osf := some new }).st.ef = s.ef ∧ (r.andThen fun t => Res.ok { t with osf := some new }).st.osf = some new := by
    intro r hr h
    rw [(Res.andThen_ok h).2.2]
    exact ⟨(congrArg Ham.dc hr :), (congrArg Ham.sn hr :), (congrArg Ham.ef hr :), rfl⟩
  refine key _ ?_ h
  split
  · split_ifs
    · exact (scaleSite_toHam _ _).1
    · rfl
  · rfl

theorem setFour_flags [DecidableEq K] (d n : Bool) (e o : K) (s : St K) (h : (s.setFour d n e o).err = none) :
    (s.setFour d n e o).st.getNotation = .ok (d, n, e, o) := by
  unfold setFour at *
  obtain ⟨h1, h2, h3⟩ := Res.andThen_ok h
  obtain ⟨h4, h5, h6⟩ := Res.andThen_ok h1
  obtain ⟨h7, h8, h9⟩ := Res.andThen_ok h4
  rw [h3]
  rw [h6] at h2 ⊢
  rw [h9] at h2 h5 ⊢
  have a1 := setDC_flags d s
  have a2 := setSN_flags n _ h8
  have a3 := setEF_flags e _ h5
  have a4 := setOF_flags o _ h2
  rw [getNotation_ok_iff]
  exact ⟨by rw [a4.1, a3.1, a2.1, a1.1], by rw [a4.2.1, a3.2.1, a2.2.1], by rw [a4.2.2.1, a3.2.2.1], a4.2.2.2⟩

end St
end Magnopy
