import Verif.Lemmas.HamRenote

/-!
# Helper lemmas: other notations if bonds are counted once in either orientation
-/

set_option autoImplicit false
set_option linter.unusedSectionVars false

namespace Magnopy
namespace St

open PyDict

variable {K : Type*} [Field K] {Γ : Type*} [AddCommGroup Γ] [Fintype Γ]

/-- `t` is a rewriting of `s` in another notation; bonds that are counted once may be in either orientation. -/
structure Kept (Γ : Type*) [AddCommGroup Γ] [Fintype Γ] (sp : Atom → K) (s t : St K) : Prop where
  wf : t.Paired
  spins : t.Spins sp
  complete : t.Complete
  atoms : t.atoms = s.atoms
  pairE : ∀ b, t.pairE sp b = s.pairE sp b
  siteE : ∀ a, t.siteE sp a = s.siteE sp a
  physics : ∀ c : Config K Γ, t.physics c sp = s.physics c sp
  either : (t.dc = s.dc ∧ ∀ b, b ∈ t.exch.keys ↔ b ∈ s.exch.keys) ∨ t.WellFormed

theorem Kept.refl {sp : Atom → K} {s : St K} (h1 : s.Paired) (h2 : s.Spins sp) (h3 : s.Complete) : Kept Γ sp s s :=
  ⟨h1, h2, h3, rfl, fun _ => rfl, fun _ => rfl, fun _ => rfl, .inl ⟨rfl, fun _ => Iff.rfl⟩⟩

theorem Renoted.kept {sp : Atom → K} {s t : St K} (h : Renoted Γ sp s t) : Kept Γ sp s t :=
  ⟨h.wf.paired, h.spins, h.complete, h.atoms, h.pairE, h.siteE, h.physics, .inr h.wf⟩

/-- A well-formed Hamiltonian with the same bonds. -/
theorem Kept.wellFormed {sp : Atom → K} {s t : St K} (h : Kept Γ sp s t) (hs : s.WellFormed) : t.WellFormed := by
  rcases h.either with ⟨h1, h2⟩ | h1
  · exact ⟨h.wf.toSound, h.wf.twice, fun hd b hb => hs.once (h1 ▸ hd) b ((h2 b).1 hb)⟩
  · exact h1

theorem Kept.trans {sp : Atom → K} {s t u : St K} (h : Kept Γ sp s t) (g : Kept Γ sp t u) : Kept Γ sp s u := by
  refine ⟨g.wf, g.spins, g.complete, g.atoms.trans h.atoms, fun b => (g.pairE b).trans (h.pairE b),
    fun a => (g.siteE a).trans (h.siteE a), fun c => (g.physics c).trans (h.physics c), ?_⟩
  rcases g.either with ⟨g1, g2⟩ | g1
  · rcases h.either with ⟨h1, h2⟩ | h1
    · exact .inl ⟨g1.trans h1, fun b => (g2 b).trans (h2 b)⟩
    · exact .inr (g.wellFormed h1)
  · exact .inr g1

theorem Scaled.paired {s t : St K} {xe : Bond → K} {xo : Atom → K} (h : Scaled s t xe xo) (hx : ∀ b : Bond, xe b.mirror = xe b)
    (hs : s.Paired) : t.Paired := by
  refine ⟨h.sound hs.toSound, ?_, ?_⟩
  · intro hd b
    rw [h.dc] at hd
    rw [h.valE, h.valE, hs.twice hd b, hx, Option.map_map, Option.map_map]
    congr 1
  · intro hd b hb
    rw [h.dc] at hd
    rw [h.exch] at hb ⊢
    exact hs.single hd b hb

theorem Scaled.oneE {s t : St K} {xe : Bond → K} {xo : Atom → K} (h : Scaled s t xe xo) (hx : ∀ b : Bond, xe b.mirror = xe b)
    (b : Bond) : t.oneE b = (s.oneE b).map fun m => xe b • m := by
  unfold St.oneE
  rw [h.valE, h.valE, hx]
  cases s.valE b <;> cases s.valE b.mirror <;> simp

/-- A rescaling that compensates the change of `sn`, `ef`, `osf`. -/
theorem Scaled.kept {s t : St K} {xe : Bond → K} {xo : Atom → K} (h : Scaled s t xe xo) {sp : Atom → K}
    (hs : s.Paired) (hsp : s.Spins sp) (hsym : ∀ b : Bond, xe b.mirror = xe b) {d n n' : Bool} {e o e' o' : K}
    (h1 : s.getNotation = .ok (d, n, e, o)) (h2 : t.getNotation = .ok (d, n', e', o')) (he : e' ≠ 0) (ho : o' ≠ 0)
    (hx : ∀ b : Bond, b.1 ∈ s.atoms → b.2.1 ∈ s.atoms → e' * (weight n' sp b.1 * weight n' sp b.2.1) * xe b =
      e * (weight n sp b.1 * weight n sp b.2.1))
    (hxo : ∀ a ∈ s.atoms, o' * (weight n' sp a * weight n' sp a) * xo a = o * (weight n sp a * weight n sp a)) :
    Kept Γ sp s t := by
  refine ⟨h.paired hsym hs, h.spins hsp, ⟨_, _, _, _, h2, he, ho⟩, h.atoms, fun b => ?_, fun a => ?_, fun c => ?_,
    .inl ⟨h.dc, fun b => by rw [h.exch]⟩⟩
  · rw [pairE_one h1, pairE_one h2, h.oneE hsym]
    by_cases hb : b ∈ s.exch.keys ∨ b.mirror ∈ s.exch.keys
    · have hin : b.1 ∈ s.atoms ∧ b.2.1 ∈ s.atoms := by
        rcases hb with hb | hb
        · exact hs.refer.exch b hb
        · exact (hs.refer.exch _ hb).symm
      rw [Option.map_map]
      refine if_congr Iff.rfl ?_ rfl
      congr 1
      funext m
      simp only [Function.comp, smul_smul]
      congr 1
      have := hx b hin.1 hin.2
      cases d
      · simp only [Bool.false_eq_true, if_false]; linear_combination this
      · simp only [if_true]; linear_combination 2 * this
    · have : s.oneE b = none := by
        rw [← Option.not_isSome_iff_eq_none, isSome_oneE_iff]; exact hb
      rw [this]; rfl
  · rw [siteE_eq h1, siteE_eq h2, h.valO]
    by_cases ha : a ∈ s.onSite.keys
    · rw [Option.map_map]
      congr 1
      funext m
      simp only [Function.comp, smul_smul]
      congr 1
      exact hxo a (hs.refer.site a ha)
    · have : s.valO a = none := by simp [St.valO, get?_eq_none_iff.2 ha]
      rw [this]; rfl
  · rw [physics_eq h1, physics_eq h2]
    have e1 := h.bonds hs.keys c (w := weight n sp) (w' := weight n' sp) (y := e / e') (fun b hb => by
      have := hx b (hs.refer.exch b hb).1 (hs.refer.exch b hb).2
      field_simp
      linear_combination this)
    have e2 := h.sites hs.keys c (w := weight n sp) (w' := weight n' sp) (y := o / o') (fun b hb => by
      have := hxo b (hs.refer.site b hb)
      field_simp
      linear_combination this)
    rw [e1, e2]
    congr 1
    field_simp

/-- `s.spin_normalized = new`. -/
theorem setSN_kept {s : St K} {sp : Atom → K} (hs : s.Paired) (hsp : s.Spins sp) {d n : Bool} {e o : K}
    (h : s.getNotation = .ok (d, n, e, o)) (he : e ≠ 0) (ho : o ≠ 0) (new : Bool) :
    ∃ t, s.setSN new = .ok t ∧ Kept Γ sp s t := by
  obtain ⟨g1, g2, g3, g4⟩ := getNotation_ok_iff.1 h
  obtain ⟨t, h1, h2, h3, h4, h5⟩ := setSN_scaled hs.keys hs.refer hs.noShare hsp new
  have ht : t.getNotation = .ok (d, new, e, o) :=
    getNotation_ok_iff.2 ⟨h2.dc.trans g1, h3, h4.trans g3, h5.trans g4⟩
  refine ⟨t, h1, h2.kept hs hsp (fun b => by simp only [Bond.mirror]; ring) h ht he ho (fun b hb hb' => ?_) (fun a ha => ?_)⟩
  · have w1 := weight_ne hsp hb new
    have w2 := weight_ne hsp hb' new
    simp only [g2, snW]
    field_simp
  · have w1 := weight_ne hsp ha new
    simp only [g2, snW]
    field_simp

/-- `s.exchange_factor = new`. -/
theorem setEF_kept [DecidableEq K] {s : St K} {sp : Atom → K} (hs : s.Paired) (hsp : s.Spins sp) {d n : Bool} {e o : K}
    (h : s.getNotation = .ok (d, n, e, o)) (ho : o ≠ 0) {new : K} (hn : new ≠ 0) :
    ∃ t, s.setEF new = .ok t ∧ Kept Γ sp s t := by
  obtain ⟨g1, g2, g3, g4⟩ := getNotation_ok_iff.1 h
  obtain ⟨t, h1, h2, h3, h4, h5⟩ := setEF_scaled hs.keys hs.noShare hn
  have ht : t.getNotation = .ok (d, n, new, o) :=
    getNotation_ok_iff.2 ⟨h2.dc.trans g1, h3.trans g2, h4, h5.trans g4⟩
  refine ⟨t, h1, h2.kept hs hsp (fun b => rfl) h ht hn ho (fun b _ _ => ?_) (fun a _ => by ring)⟩
  simp only [g3, efW]
  field_simp

/-- `s.on_site_factor = new`. -/
theorem setOF_kept [DecidableEq K] {s : St K} {sp : Atom → K} (hs : s.Paired) (hsp : s.Spins sp) {d n : Bool} {e o : K}
    (h : s.getNotation = .ok (d, n, e, o)) (he : e ≠ 0) {new : K} (hn : new ≠ 0) :
    ∃ t, s.setOF new = .ok t ∧ Kept Γ sp s t := by
  obtain ⟨g1, g2, g3, g4⟩ := getNotation_ok_iff.1 h
  obtain ⟨t, h1, h2, h3, h4, h5⟩ := setOF_scaled hs.keys hs.noShare hn
  have ht : t.getNotation = .ok (d, n, e, new) :=
    getNotation_ok_iff.2 ⟨h2.dc.trans g1, h3.trans g2, h4.trans g3, h5⟩
  refine ⟨t, h1, h2.kept hs hsp (fun b => rfl) h ht he hn (fun b _ _ => by ring) (fun a _ => ?_)⟩
  simp only [g4, efW]
  field_simp

/-- `s.double_counting = False` if it is `False` already and a bond is not canonical: `TypeError` and nothing happens. -/
theorem setDC_stuck {s : St K} (hs : s.Paired) (hd : s.dc = some false) (hw : ¬ s.WellFormed) :
    s.setDC false = .raise s .typeError ∧ ∃ b ∈ s.exch.keys, ¬ Canonical b := by
  have hb : ∃ b ∈ s.exch.keys, ¬ Canonical b := by
    by_contra hn
    push Not at hn
    exact hw ⟨hs.toSound, hs.twice, fun _ => hn⟩
  refine ⟨?_, hb⟩
  have e : s.dcScaled false = s := by
    unfold dcScaled
    rw [if_neg (by rw [hd]; simp)]
    rw [← hd]
  rw [setDC_eq hs.keys, e]
  simp only [Bool.false_eq_true, if_false]
  obtain ⟨b, hb, hc⟩ := hb
  cases hcr : s.collectRemovals s.exch.keys with
  | error e =>
    have he := collectRemovals_error _ _ _ hcr
    subst he
    simp only [ensureNoDC, hcr]
  | ok rem =>
    have := (collectRemovals_ok_iff s s.exch.keys).1 (by rw [hcr]; exact ⟨rem, rfl⟩) b hb
    exact absurd (this (by rw [← keeps_iff] at hc; simpa using hc)) (hs.single hd b hb)

/-- One operation that assigns the notation. -/
theorem step_kept [LinearOrder K] {s : St K} {sp : Atom → K} (hs : s.Paired) (hsp : s.Spins sp)
    (h2 : (2 : K) ≠ 0) (hc : s.Complete) (op : Op K) (hop : op.Renotes) : Kept Γ sp s (op.step s).st := by
  by_cases hw : s.WellFormed
  · exact (step_renoted hw hsp h2 hc op hop).1.kept
  have hc' := hc
  obtain ⟨d0, n0, e0, o0, h, he0, ho0⟩ := hc
  have hd : s.dc = some false := by
    have := (getNotation_ok_iff.1 h).1
    cases d0 with
    | true => exact absurd (hs.wf_of_true this) hw
    | false => exact this
  have hst := (setDC_stuck hs hd hw).1
  cases op with
  | setDC b =>
    cases b with
    | true =>
      obtain ⟨t, a, r, _⟩ := setDC_on_renoted (Γ := Γ) hs hsp h2 h he0 ho0
      simp only [Op.step, a]; exact r.kept
    | false =>
      simp only [Op.step, hst]; exact Kept.refl hs hsp hc'
  | setSN b =>
    obtain ⟨t, a, r⟩ := setSN_kept (Γ := Γ) hs hsp h he0 ho0 b
    simp only [Op.step, a]; exact r
  | setEF x =>
    obtain ⟨t, a, r⟩ := setEF_kept (Γ := Γ) hs hsp h ho0 (new := x) hop
    simp only [Op.step, a]; exact r
  | setOF x =>
    obtain ⟨t, a, r⟩ := setOF_kept (Γ := Γ) hs hsp h he0 (new := x) hop
    simp only [Op.step, a]; exact r
  | setNotation a =>
    rcases setNotation_means s a with ⟨d, n, e, o, hm, heq, _⟩ | ⟨_, heq⟩
    · have hz := hop _ hm
      cases d with
      | true =>
        obtain ⟨t, a, r, _⟩ := setFour_on_renoted (Γ := Γ) hs hsp h2 hc' n hz.1 hz.2
        simp only [Op.step, heq, a]; exact r.kept
      | false =>
        have : s.setFour false n e o = .raise s .typeError := by
          simp [setFour, hst, Res.andThen, Res.raise]
        simp only [Op.step, heq, this]; exact Kept.refl hs hsp hc'
    · simp only [Op.step, heq]
      exact Kept.refl hs hsp hc'
  | _ => exact absurd hop (by simp [Op.Renotes])

theorem run_kept [LinearOrder K] {sp : Atom → K} (h2 : (2 : K) ≠ 0) (ops : List (Op K)) (hop : ∀ o ∈ ops, o.Renotes)
    {s : St K} (hs : s.Paired) (hsp : s.Spins sp) (hc : s.Complete) : Kept Γ sp s (runOps ops s) := by
  induction ops generalizing s with
  | nil => exact Kept.refl hs hsp hc
  | cons o os ih =>
    have h := step_kept (Γ := Γ) hs hsp h2 hc o (hop o (by simp))
    exact h.trans (ih (fun o ho => hop o (by simp [ho])) h.wf h.spins h.complete)

/-- Two Hamiltonians in the same notation with the same energy matrices store the same matrix for each pair. -/
theorem one_of_pairE {s t : St K} {sp : Atom → K} (hs : s.Paired) (ht : t.Paired) (hsp : s.Spins sp)
    (hat : t.atoms = s.atoms) (h2 : (2 : K) ≠ 0) {d n : Bool} {e o : K} (h : s.getNotation = .ok (d, n, e, o))
    (h' : t.getNotation = .ok (d, n, e, o)) (he : e ≠ 0) (hp : ∀ b, t.pairE sp b = s.pairE sp b) (b : Bond) :
    t.oneE b = s.oneE b := by
  have g1 := (getNotation_ok_iff.1 h).1
  have g1' := (getNotation_ok_iff.1 h').1
  have key : ∀ b, keeps b = true → t.oneE b = s.oneE b := by
    intro b hb
    have hp := hp b
    rw [pairE_one h, pairE_one h', if_pos hb, if_pos hb] at hp
    by_cases hm : (s.oneE b).isSome ∨ (t.oneE b).isSome
    · have hin : b.1 ∈ s.atoms ∧ b.2.1 ∈ s.atoms := by
        rw [isSome_oneE_iff, isSome_oneE_iff] at hm
        rcases hm with (hm | hm) | hm | hm
        · exact hs.refer.exch b hm
        · exact (hs.refer.exch _ hm).symm
        · rw [← hat]; exact ht.refer.exch b hm
        · rw [← hat]; exact (ht.refer.exch _ hm).symm
      refine Option.map_injective (smul_injective ?_) hp
      refine mul_ne_zero (mul_ne_zero ?_ he) (mul_ne_zero (weight_ne hsp hin.1 n) (weight_ne hsp hin.2 n))
      split_ifs
      · exact h2
      · exact one_ne_zero
    · rw [not_or, Option.not_isSome_iff_eq_none, Option.not_isSome_iff_eq_none] at hm
      rw [hm.1, hm.2]
  by_cases hb : keeps b = true
  · exact key b hb
  · by_cases hm : (s.oneE b).isSome ∨ (t.oneE b).isSome
    · have hk : keeps b.mirror = true := by
        rw [isSome_oneE_iff, isSome_oneE_iff] at hm
        have : keeps b.mirror = !keeps b := by
          rcases hm with hm | hm
          · exact hs.keeps_mirror hm
          · exact ht.keeps_mirror hm
        rw [this]
        simpa using hb
      have := key b.mirror hk
      rw [hs.oneE_mirror g1, ht.oneE_mirror g1'] at this
      exact Option.map_injective (fun m m' e => by simpa using congrArg Matrix.transpose e) this
    · rw [not_or, Option.not_isSome_iff_eq_none, Option.not_isSome_iff_eq_none] at hm
      rw [hm.1, hm.2]

end St
end Magnopy
