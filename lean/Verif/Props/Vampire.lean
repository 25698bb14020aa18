import Verif.Lemmas.Vampire
import Verif.Props.HamNotation
import Verif.Spec.Tensor
import Mathlib.Tactic.FieldSimp
import Mathlib.Tactic.LinearCombination
import Mathlib.Tactic.FinCases
import Mathlib.Order.Interval.Finset.Basic
import Mathlib.Data.Int.Interval

/-!
# Properties C53, C61, C62 and C63: the export to Vampire
-/

set_option autoImplicit false

set_option linter.unusedSectionVars false

namespace Magnopy

open PyDict Vampire

variable {K : Type*} [Field K]

section Export

variable [DecidableEq K]

/-! ### C53 -/

/-- **C53, exactly (the Hamiltonian).** For a Hamiltonian with spins and a list of materials that is not too short, `dump_ucf`
returns the content and leaves the atoms, the notation and all stored values as they were, except that bonds that are counted
once end in the canonical orientation. -/
theorem C53_turned (h2 : (2 : K) ≠ 0) (order : List Atom → List Atom) (hord : ∀ l, (order l).Perm l)
    (energy : K) (mask : Mask K) (materials : Option (List ℤ)) (sp : Atom → K) (s : St K) (hs : s.Paired)
    (hsp : s.Spins sp) (hc : s.Complete)
    (hm : ∀ m, materials = some m → (s.magneticAtoms order).length ≤ m.length) :
    ∃ u t, dumpUcf order energy mask materials s = (.ok u, t) ∧ TurnedHam s t ∧ t.WellFormed := by
  obtain ⟨u, t, v, items, h⟩ := dump_spec Unit h2 hord energy mask materials hs hsp hc hm
  exact ⟨u, t, h.dump, h.turned, h.back⟩

/-- For a well-formed Hamiltonian nothing is turned around. -/
theorem TurnedHam.same {s t : St K} (h : TurnedHam s t) (hs : s.WellFormed) {d : Bool} (hd : s.dc = some d) : SameHam s t := by
  refine ⟨h.atoms, h.notation', fun b => ?_, h.valO⟩
  cases d with
  | true => exact h.twice hd b
  | false =>
    by_cases hb : b ∈ s.exch.keys
    · exact (h.once hd b (hs.once hd b hb)).1 hb
    · rw [St.valE_eq_none_iff.2 hb]
      by_cases hc : Canonical b
      · refine (h.once hd b hc).2.2 hb fun hm => ?_
        have h1 := hs.once hd _ hm
        rw [← keeps_iff] at h1 hc
        have := hs.paired.keeps_mirror (Or.inr hm)
        rw [h1, hc] at this
        cases this
      · exact St.valE_eq_none_iff.2 fun hm => hc (h.canonical hd b hm)

/-- **C53, what is provable (the Hamiltonian).** For a well-formed Hamiltonian with spins and a list of materials that is
not too short, `dump_ucf` returns the content and leaves the atoms, the notation and all stored values as they were.

Missing for the full property: other Hamiltonians and short lists, see `C53_unchanged_false`. -/
theorem C53_unchanged_partial (h2 : (2 : K) ≠ 0) (order : List Atom → List Atom) (hord : ∀ l, (order l).Perm l)
    (energy : K) (mask : Mask K) (materials : Option (List ℤ)) (sp : Atom → K) (s : St K) (hs : s.WellFormed)
    (hsp : s.Spins sp) (hc : s.Complete)
    (hm : ∀ m, materials = some m → (s.magneticAtoms order).length ≤ m.length) :
    ∃ u t, dumpUcf order energy mask materials s = (.ok u, t) ∧ SameHam s t := by
  obtain ⟨u, t, v, items, h⟩ := dump_spec Unit h2 hord energy mask materials hs.paired hsp hc hm
  exact ⟨u, t, h.dump, h.same hs⟩

theorem Vampire.DumpSpec.lists {Γ : Type*} [AddCommGroup Γ] [Fintype Γ] {order : List Atom → List Atom}
    {energy : K} {mask : Mask K} {materials : Option (List ℤ)} {sp : Atom → K} {s t v : St K} {u : Ucf K}
    {items : List (Bond × M3 K)} (h : DumpSpec Γ order energy mask materials sp s u t v items) :
    u.Lists (s.magneticAtoms order) items (fun J => energy • mask.apply J) := by
  refine ⟨h.count, by rw [h.lines]; simp, fun n b J hn => ?_⟩
  have hmem := h.atoms _ (List.mem_of_getElem? hn)
  refine ⟨_, by rw [h.lines, List.getElem?_map, List.getElem?_zipIdx, hn]; rfl, by simp, ?_, ?_, rfl, rfl⟩
  · exact List.getElem?_idxOf hmem.1
  · exact List.getElem?_idxOf hmem.2

/-- The stored value of the notation "vampire" in terms of the original one. -/
theorem Vampire.DumpSpec.value {Γ : Type*} [AddCommGroup Γ] [Fintype Γ] {order : List Atom → List Atom}
    {energy : K} {mask : Mask K} {materials : Option (List ℤ)} {sp : Atom → K} {s t v : St K} {u : Ucf K}
    {items : List (Bond × M3 K)} (h : DumpSpec Γ order energy mask materials sp s u t v items) (h2 : (2 : K) ≠ 0)
    (hs : s.Paired) {d n : Bool} {e o : K} (hn : s.getNotation = .ok (d, n, e, o)) {b : Bond} {J : M3 K}
    (hJ : v.valE b = some J) : J = s.vampireBond n e sp b := by
  have g1 := (St.getNotation_ok_iff.1 hn).1
  have gv := (St.getNotation_ok_iff.1 h.vampire).1
  have key : ∀ (b : Bond) (J : M3 K), v.valE b = some J → St.keeps b = true → J = s.vampireBond n e sp b := by
    intro b J hJ hk
    have hp := h.renoted.pairE b
    rw [St.pairE_eq h.renoted.wf h.vampire, St.pairE_one hn, if_pos hk, if_pos hk, hJ, Option.map_some] at hp
    cases hs' : s.oneE b with
    | none => rw [hs'] at hp; cases hp
    | some M =>
      rw [hs', Option.map_some, Option.some.injEq] at hp
      have hJ' : J = -((if d then 2 else 1) * e * (weight n sp b.1 * weight n sp b.2.1)) • M := by
        rw [neg_smul, ← hp, ← neg_smul]
        simp only [if_true, weight]
        rw [show -(2 * -(1 / 2) * ((1 : K) * 1)) = 1 by field_simp, one_smul]
      rw [hJ', St.vampireBond]
      cases d with
      | true =>
        have hb : s.valE b = some M := by
          rw [St.oneE, hs.twice g1 b] at hs'
          cases h1 : s.valE b with
          | none => rw [h1] at hs'; cases hs'
          | some M' => rw [h1] at hs'; simpa using hs'
        rw [hs.twice g1 b, hb, Option.map_some, Option.getD_some, Option.getD_some, Matrix.transpose_transpose,
          ← two_smul K M, smul_smul]
        congr 1
        simp only [if_true]; ring
      | false =>
        rcases St.some_of_oneE hs' with hb | hb
        · rw [St.valE_eq_none_iff.2 (hs.single g1 b (St.isSome_valE_iff.1 (by rw [hb]; rfl))), hb]
          simp
        · have := hs.single g1 _ (St.isSome_valE_iff.1 (by rw [hb]; rfl))
          rw [Bond.mirror_mirror] at this
          rw [St.valE_eq_none_iff.2 this, hb]
          simp
  cases hk : St.keeps b with
  | true => exact key b J hJ hk
  | false =>
    have hb : b ∈ v.exch.keys := St.isSome_valE_iff.1 (by rw [hJ]; rfl)
    have hwf := h.renoted.wf
    have hm := keeps_mirror (hwf.noSelf b hb) (hwf.index _ (hwf.refer.exch b hb).1 _ (hwf.refer.exch b hb).2)
    rw [hk] at hm
    have hJm : v.valE b.mirror = some J.transpose := by rw [hwf.twice gv b, hJ]; rfl
    have := congrArg Matrix.transpose (key _ _ hJm hm)
    rw [Matrix.transpose_transpose] at this
    rw [this]
    simp only [St.vampireBond, Bond.mirror_mirror, Matrix.transpose_smul, Matrix.transpose_add,
      Matrix.transpose_transpose]
    have e1 : b.mirror.1 = b.2.1 := rfl
    have e2 : b.mirror.2.1 = b.1 := rfl
    rw [e1, e2, add_comm, mul_comm (weight n sp b.2.1)]

/-- **C53, what is provable (the file).** Whatever `dump_ucf` returns for such a Hamiltonian, its interaction list has one
line, numbered from zero, for every ordered pair of atoms with a stored bond (in this or in the mirrored orientation), and
one line for every on-site term; no pair is listed twice and the number in the header is the number of lines.  Before the
mask and the unit `ENERGY`, the matrix of a pair is minus the energy matrix of the pair, and the matrix of an on-site term is
`-1/2` of its energy matrix.  The atoms are numbered in the order of `magnetic_atoms`. -/
theorem C53_lines_partial (h2 : (2 : K) ≠ 0) (order : List Atom → List Atom) (hord : ∀ l, (order l).Perm l)
    (energy : K) (mask : Mask K) (materials : Option (List ℤ)) (sp : Atom → K) (s : St K) (hs : s.Paired)
    (hsp : s.Spins sp) (d n : Bool) (e o : K) (hn : s.getNotation = .ok (d, n, e, o)) (he : e ≠ 0) (ho : o ≠ 0)
    (hm : ∀ m, materials = some m → (s.magneticAtoms order).length ≤ m.length) (u : Ucf K) (t : St K)
    (hu : dumpUcf order energy mask materials s = (.ok u, t)) :
    u.HasAtoms (s.magneticAtoms order) (fun k => match materials with | none => (k : ℤ) | some m => (m[k]?).getD 0) ∧
    ∃ items : List (Bond × M3 K), u.Lists (s.magneticAtoms order) items (fun J => energy • mask.apply J) ∧
      (items.map Prod.fst).Nodup ∧
      (∀ b, b ∈ items.map Prod.fst ↔
        (b ∈ s.exch.keys ∨ b.mirror ∈ s.exch.keys) ∨ ∃ a ∈ s.onSite.keys, b = (a, a, (0, 0, 0))) ∧
      (∀ b J, (b, J) ∈ items → (b ∈ s.exch.keys ∨ b.mirror ∈ s.exch.keys) → J = s.vampireBond n e sp b) ∧
      (∀ a A J, s.valO a = some A → ((a, a, (0, 0, 0)), J) ∈ items →
        J = -(o * (weight n sp a * weight n sp a) / 2) • A) := by
  have hc : s.Complete := ⟨d, n, e, o, hn, he, ho⟩
  obtain ⟨u', t', v, items, h⟩ := dump_spec Unit h2 hord energy mask materials hs hsp hc hm
  rw [h.dump] at hu
  cases hu
  have hwf := h.renoted.wf
  have gv := (St.getNotation_ok_iff.1 h.vampire).1
  have htwice : ∀ b, (b ∈ v.exch.keys ∨ b.mirror ∈ v.exch.keys) → b ∈ v.exch.keys := by
    rintro b (hb | hb)
    · exact hb
    · rw [← St.isSome_valE_iff] at hb ⊢
      rwa [hwf.twice gv b, Option.isSome_map] at hb
  have htouch : ∀ b, b ∈ v.exch.keys ↔ (b ∈ s.exch.keys ∨ b.mirror ∈ s.exch.keys) := fun b =>
    ⟨fun hb => (h.renoted.touch hs hc b).1 (Or.inl hb), fun hb => htwice b ((h.renoted.touch hs hc b).2 hb)⟩
  have hnoself : ∀ a, (a, a, ((0, 0, 0) : Cell)) ∉ v.exch.keys := fun a ha => hwf.noSelf _ ha rfl
  have hfst : items.map Prod.fst = (v.onSite.keys.map fun a => (a, a, ((0, 0, 0) : Cell))) ++ v.exch.keys := by
    rw [h.items_eq]
    simp [St.onSiteItems, St.exchangeItems, keys, Function.comp_def]
  have hmemE : ∀ b J, (b, J) ∈ items → b ∈ v.exch.keys → v.valE b = some J := by
    intro b J hbJ hb
    rw [h.items_eq, List.mem_append] at hbJ
    rcases hbJ with hbJ | hbJ
    · obtain ⟨p, _, hp⟩ := List.mem_map.1 hbJ
      simp only [Prod.mk.injEq] at hp
      rw [← hp.1] at hb
      exact absurd hb (hnoself _)
    · obtain ⟨p, hp, hpe⟩ := List.mem_map.1 hbJ
      simp only [Prod.mk.injEq] at hpe
      rw [St.valE, ← hpe.1, get?_of_mem hwf.keys.exch (k := p.1) (v := p.2) hp, Option.map_some, hpe.2]
  refine ⟨⟨by rw [h.atomLines]; simp, fun k a hk => ?_⟩, items, h.lists, ?_, fun b => ?_, fun b J hbJ hb => ?_,
    fun a A J hA haJ => ?_⟩
  · have hlt : k < (s.magneticAtoms order).length := by
      by_contra hc
      rw [List.getElem?_eq_none (by omega)] at hk
      cases hk
    rw [h.atomLines, List.getElem?_map, List.getElem?_zipIdx, hk]
    cases materials with
    | none => simp [materialsOf, hlt]
    | some m => simp [materialsOf]
  · rw [hfst, List.nodup_append]
    refine ⟨hwf.keys.site.map fun a b hab => (Prod.mk.inj hab).1, hwf.keys.exch, fun b hb b' hb' hbb => ?_⟩
    obtain ⟨a, _, rfl⟩ := List.mem_map.1 hb
    subst hbb
    exact hnoself a hb'
  · rw [hfst, List.mem_append, htouch, or_comm, List.mem_map]
    refine or_congr Iff.rfl ⟨?_, ?_⟩
    · rintro ⟨a, ha, rfl⟩
      exact ⟨a, (h.renoted.onSiteKeys hc a).1 ha, rfl⟩
    · rintro ⟨a, ha, rfl⟩
      exact ⟨a, (h.renoted.onSiteKeys hc a).2 ha, rfl⟩
  · exact h.value h2 hs hn (hmemE b J hbJ ((htouch b).2 hb))
  · rw [h.items_eq, List.mem_append] at haJ
    rcases haJ with haJ | haJ
    · obtain ⟨p, hp, hpe⟩ := List.mem_map.1 haJ
      simp only [Prod.mk.injEq] at hpe
      obtain ⟨q, hq, rfl⟩ := List.mem_map.1 hp
      have hv : v.valO a = some (v.cell q.2) := by
        rw [St.valO, ← hpe.1.1, get?_of_mem hwf.keys.site (k := q.1) (v := q.2) hq, Option.map_some]
      have hsE := h.renoted.siteE a
      rw [St.siteE_eq h.vampire, St.siteE_eq hn, hv, hA, Option.map_some, Option.map_some, Option.some.injEq] at hsE
      simp only [weight, if_true, mul_one] at hsE
      rw [← hpe.2]
      have : v.cell q.2 = -((o * (weight n sp a * weight n sp a)) • A) := by
        simp only [weight]
        rw [← hsE, neg_smul, one_smul, neg_neg]
      simp only [this, smul_neg, smul_smul, neg_smul]
      congr 2
      ring
    · obtain ⟨p, hp, hpe⟩ := List.mem_map.1 haJ
      simp only [Prod.mk.injEq] at hpe
      exact absurd (List.mem_map.2 ⟨p, hp, hpe.1⟩) (hnoself a)

/-- **C53, the failure in general.** With a list of materials that is shorter than the list of magnetic atoms `dump_ucf`
raises `IndexError` and leaves every Hamiltonian in the notation "vampire" (with the same energies). -/
theorem C53_short_materials (h2 : (2 : K) ≠ 0) {Γ : Type*} [AddCommGroup Γ] [Fintype Γ] (order : List Atom → List Atom)
    (hord : ∀ l, (order l).Perm l) (energy : K) (mask : Mask K) (m : List ℤ) (sp : Atom → K) (s : St K)
    (hs : s.Paired) (hsp : s.Spins sp) (hc : s.Complete) (hm : m.length < (s.magneticAtoms order).length) :
    ∃ t, dumpUcf order energy mask (some m) s = (.error .indexError, t) ∧
      t.getNotation = .ok (true, true, -(1 / 2), -1) ∧ ∀ c : Config K Γ, t.physics c sp = s.physics c sp := by
  obtain ⟨u, t, v, items, h⟩ := dump_spec Γ h2 hord energy mask none hs hsp hc (fun m hm => by cases hm)
  obtain ⟨d, n, e, o, hn, he, ho⟩ := hc
  have hset := h.set
  refine ⟨v, ?_, h.vampire, h.renoted.physics⟩
  unfold dumpUcf
  simp only [hn, hset, Res.st_ok, Res.err_ok, h.renoted.magneticAtoms_eq hs ⟨d, n, e, o, hn, he, ho⟩ hord, materialsOf,
    atomLines_short m _ 0 (Nat.zero_le _) (by simpa using hm)]

/-! ### C61 -/

/-- The default mask. -/
def Vampire.Mask.all (mask : Mask K) : Prop := mask.custom = none ∧ mask.anisotropic = true ∧ mask.dmi = true

theorem Vampire.DumpSpec.energy {Γ : Type*} [AddCommGroup Γ] [Fintype Γ] {order : List Atom → List Atom}
    {energy : K} {mask : Mask K} {materials : Option (List ℤ)} {sp : Atom → K} {s t v : St K} {u : Ucf K}
    {items : List (Bond × M3 K)} (h : DumpSpec Γ order energy mask materials sp s u t v items)
    (hmask : mask.all) (c : Config K Γ) :
    u.energy c = energy * (-(1 / 2) * c.bonds (fun _ => 1) items) := by
  have hap : ∀ J, mask.apply J = J := fun J => by
    obtain ⟨h1, h2, h3⟩ := hmask
    simp [Mask.apply, h1, h2, h3]
  unfold Ucf.energy Config.bonds
  rw [h.lines, List.map_map]
  have : ∀ (l : List (Bond × M3 K)) (k : ℕ), (∀ p ∈ l, p.1.1 ∈ s.magneticAtoms order ∧ p.1.2.1 ∈ s.magneticAtoms order) →
      ((l.zipIdx k).map (u.lineSum c ∘ fun q => (⟨q.2, (s.magneticAtoms order).idxOf q.1.1.1,
    (s.magneticAtoms order).idxOf q.1.1.2.1, q.1.1.2.2, energy • mask.apply q.1.2⟩ : Line K))).sum =
      energy * (l.map fun p => 1 * 1 * c.bond p.1 p.2).sum := by
    intro l
    induction l with
    | nil => intro k _; simp
    | cons p l ih =>
      intro k hl
      have hp := hl p List.mem_cons_self
      have hat : ∀ a ∈ s.magneticAtoms order, ∃ m, u.atoms[(s.magneticAtoms order).idxOf a]? = some m ∧ m.2.1 = a := by
        intro a ha
        rw [h.atomLines, List.getElem?_map, List.getElem?_zipIdx, List.getElem?_idxOf ha]
        exact ⟨_, rfl, rfl⟩
      obtain ⟨m1, e1, f1⟩ := hat _ hp.1
      obtain ⟨m2, e2, f2⟩ := hat _ hp.2
      rw [List.zipIdx_cons, List.map_cons, List.sum_cons, ih (k + 1) fun q hq => hl q (List.mem_cons_of_mem _ hq),
        List.map_cons, List.sum_cons, mul_add]
      congr 1
      simp only [Function.comp, Ucf.lineSum, e1, e2, f1, f2, hap]
      rw [one_mul, one_mul, ← Config.bond_smul]
  rw [this items 0 h.atoms]
  ring

/-- **C61, what is provable.** The energy that Vampire computes from the interaction list, `-1/2 Σ eᵢᵀ Jᵢⱼ eⱼ`, is for every
supercell and every configuration `ENERGY` times the exchange energy of the Hamiltonian plus a *quarter* of its on-site
energy.  Hence it is the energy of the Hamiltonian exactly for the configurations whose on-site energy vanishes. -/
theorem C61_energy_partial (h2 : (2 : K) ≠ 0) (h3 : (3 : K) ≠ 0) {Γ : Type*} [AddCommGroup Γ] [Fintype Γ]
    (order : List Atom → List Atom) (hord : ∀ l, (order l).Perm l) (energy : K) (henergy : energy ≠ 0) (mask : Mask K)
    (hmask : mask.all) (materials : Option (List ℤ)) (sp : Atom → K) (s : St K) (hs : s.Paired) (hsp : s.Spins sp)
    (d n : Bool) (e o : K) (hn : s.getNotation = .ok (d, n, e, o)) (he : e ≠ 0) (ho : o ≠ 0)
    (hm : ∀ m, materials = some m → (s.magneticAtoms order).length ≤ m.length) (u : Ucf K) (t : St K)
    (hu : dumpUcf order energy mask materials s = (.ok u, t)) (c : Config K Γ) :
    u.energy c = energy * (e * c.bonds (weight n sp) s.exchangeItems + o * c.sites (weight n sp) s.onSiteItems / 4) ∧
    (some (u.energy c) = (s.physics c sp).map (energy * ·) ↔ c.sites (weight n sp) s.onSiteItems = 0) := by
  have hc : s.Complete := ⟨d, n, e, o, hn, he, ho⟩
  obtain ⟨u', t', v, items, h⟩ := dump_spec Γ h2 hord energy mask materials hs hsp hc hm
  rw [h.dump] at hu
  cases hu
  obtain ⟨gd, gn, ge, go⟩ := St.getNotation_ok_iff.1 h.vampire
  have hsum := (C22_exchange_like_sum_partial v h.renoted.wf.keys h.renoted.wf.alloc _ _ ge go (by simp) items h.like c
    (fun _ => 1)).1
  have hphys := h.renoted.physics c
  rw [St.physics_eq h.vampire, St.physics_eq hn, Option.some.injEq] at hphys
  have hw : weight true sp = fun _ => (1 : K) := by funext a; simp [weight]
  rw [hw] at hphys
  have hsites : -(c.sites (fun _ => 1) v.onSiteItems) = o * c.sites (weight n sp) s.onSiteItems := by
    rw [St.sites_eq_sum h.renoted.wf.keys, St.sites_eq_sum hs.keys, Finset.mul_sum, ← Finset.sum_neg_distrib]
    have hfin : v.onSite.keys.toFinset = s.onSite.keys.toFinset := by
      ext a; simp [h.renoted.onSiteKeys hc a]
    rw [hfin]
    refine Finset.sum_congr rfl fun a _ => ?_
    have hsE := h.renoted.siteE a
    rw [St.siteE_eq h.vampire, St.siteE_eq hn] at hsE
    cases hv : v.valO a with
    | none =>
      rw [hv] at hsE
      cases hs' : s.valO a with
      | none => simp
      | some A => rw [hs'] at hsE; cases hsE
    | some B =>
      rw [hv] at hsE
      cases hs' : s.valO a with
      | none => rw [hs'] at hsE; cases hsE
      | some A =>
        rw [hs', Option.map_some, Option.map_some, Option.some.injEq] at hsE
        have := congrArg (c.site a) hsE
        rw [Config.site_smul, Config.site_smul] at this
        simp only [Option.elim_some]
        simp only [weight, if_true] at this ⊢
        linear_combination this
  have h4 : (4 : K) ≠ 0 := by
    have : (4 : K) = 2 * 2 := by norm_num
    rw [this]; exact mul_ne_zero h2 h2
  have key : u.energy c = energy * (e * c.bonds (weight n sp) s.exchangeItems +
      o * c.sites (weight n sp) s.onSiteItems / 4) := by
    rw [h.energy hmask c, hsum]
    congr 1
    have hq : (-(1 / 2) : K) ^ 2 / -1 = -(1 / 4) := by
      rw [div_neg, div_one]
      congr 1
      rw [neg_sq, div_pow, one_pow]
      norm_num
    rw [hq]
    generalize c.sites (fun _ => 1) v.onSiteItems = x at *
    generalize c.bonds (fun _ => 1) v.exchangeItems = y at *
    generalize o * c.sites (weight n sp) s.onSiteItems = z at *
    generalize e * c.bonds (weight n sp) s.exchangeItems = w at *
    linear_combination hphys - (1 : K) * hsites + (1 / 4) * hsites
  refine ⟨key, ?_⟩
  rw [St.physics_eq hn, key, Option.map_some, Option.some.injEq, mul_right_inj' henergy, add_right_inj]
  constructor
  · intro hx
    field_simp at hx
    have : (3 : K) * c.sites (weight n sp) s.onSiteItems = 0 := by linear_combination -hx
    exact (mul_eq_zero.1 this).resolve_left h3
  · intro hx
    rw [hx]; simp

end Export

/-! ### C63 -/

/-- **C63.** The masks of `dump_ucf` act on the parts of the exchange tensor `J = j 1 + S + [D]`: `dmi=False` removes
exactly the antisymmetric part, `anisotropic=False` exactly the symmetric traceless part, in any combination. -/
theorem C63_masks (h2 : (2 : K) ≠ 0) (h3 : (3 : K) ≠ 0) (mask : Mask K) (hm : mask.custom = none) (J : M3 K) (j : K)
    (S : M3 K) (D : V3 K) (h : Spec.IsDecomposition J j S D) :
    mask.apply J = j • (1 : M3 K) + (if mask.anisotropic then S else 0) + if mask.dmi then Spec.dmMatrix D else 0 := by
  obtain ⟨hJ, hS, hT⟩ := h
  have hs : ∀ i k, S i k = S k i := fun i k => congrFun (congrFun hS k) i
  have ht : S 0 0 + S 1 1 + S 2 2 = 0 := by
    have := hT
    simp only [Matrix.trace, Matrix.diag, Fin.sum_univ_three] at this
    exact this
  have e1 : J - Param.dmiMatrix J = j • (1 : M3 K) + S := by
    ext i k
    have a := hs i k
    fin_cases i <;> fin_cases k <;>
      simp [hJ, Param.dmiMatrix, Param.asymmMatrix, Spec.dmMatrix] at a ⊢ <;> (try rw [a]) <;> field_simp <;> ring
  have e2 : ∀ A : V3 K, (j • (1 : M3 K) + S + Spec.dmMatrix A) -
      Param.aniso (j • (1 : M3 K) + S + Spec.dmMatrix A) = j • (1 : M3 K) + Spec.dmMatrix A := by
    intro A
    have hz : S 2 2 = -(S 0 0) - S 1 1 := by linear_combination ht
    have hiso : Param.iso (j • (1 : M3 K) + S + Spec.dmMatrix A) = j := by
      simp [Param.iso, Param.symmMatrix, Spec.dmMatrix, hz]
      field_simp
      ring
    have hA : Param.aniso (j • (1 : M3 K) + S + Spec.dmMatrix A) =
        Matrix.of fun i k => Param.symmMatrix (j • (1 : M3 K) + S + Spec.dmMatrix A) i k - j * Param.eye i k := by
      unfold Param.aniso
      rw [hiso]
    rw [hA]
    ext i k
    have a := hs i k
    fin_cases i <;> fin_cases k <;>
      simp [Param.symmMatrix, Param.eye, Spec.dmMatrix] at a ⊢ <;> (try rw [a]) <;> field_simp <;> ring
  have e3 : Spec.dmMatrix (0 : V3 K) = 0 := by
    ext i k
    fin_cases i <;> fin_cases k <;> simp [Spec.dmMatrix]
  unfold Mask.apply
  rw [hm]
  dsimp only
  cases mask.dmi <;> cases mask.anisotropic
  · simp only [Bool.false_eq_true, if_false, e1]
    have := e2 0
    rw [e3, add_zero, add_zero] at this
    rw [this]; simp
  · simp only [Bool.false_eq_true, if_false, if_true, e1]; simp
  · simp only [Bool.false_eq_true, if_false, if_true]
    rw [hJ, e2]; simp
  · simp only [if_true]
    exact hJ

/-- Hypotheses and conclusion of C63: a tensor with all three parts, both masks. -/
example : (⟨false, false, none⟩ : Mask ℚ).apply !![1, 2, 3; 4, 5, 6; 7, 8, 9] = !![5, 0, 0; 0, 5, 0; 0, 0, 5] ∧
    (⟨true, false, none⟩ : Mask ℚ).apply !![1, 2, 3; 4, 5, 6; 7, 8, 9] = !![1, 3, 5; 3, 5, 7; 5, 7, 9] ∧
    (⟨false, true, none⟩ : Mask ℚ).apply !![1, 2, 3; 4, 5, 6; 7, 8, 9] = !![5, -1, -2; 1, 5, -1; 2, 1, 5] := by
  refine ⟨?_, ?_, ?_⟩ <;> (ext i k; fin_cases i <;> fin_cases k <;> decide +kernel)

/-! ### C62 -/

theorem Vampire.matBlocks_spec (materials : List ℤ) (as : List Atom) (before : List ℤ)
    (hb : before <+: materials) (h : before.length + as.length ≤ materials.length) :
    ∃ l, matBlocks materials as before = .ok l ∧
      (∀ k a, (k, a) ∈ l ↔ ∃ n : ℕ, as[n]? = some a ∧ materials[before.length + n]? = some (k - 1) ∧
        ∀ n' < before.length + n, materials[n']? ≠ some (k - 1)) ∧
      (l.map Prod.fst).Nodup := by
  induction as generalizing before with
  | nil => exact ⟨[], rfl, by simp, by simp⟩
  | cons a as ih =>
    simp only [List.length_cons] at h
    have hlt : before.length < materials.length := by omega
    have hget : materials[before.length]? = some materials[before.length] := List.getElem?_eq_getElem hlt
    set m := materials[before.length] with hmdef
    have hpre : ∀ n' < before.length, materials[n']? = before[n']? := fun n' hn' => by
      obtain ⟨r, hr⟩ := hb
      rw [← hr, List.getElem?_append_left hn']
    have hb' : before ++ [m] <+: materials := by
      obtain ⟨r, hr⟩ := hb
      cases r with
      | nil => rw [List.append_nil] at hr; rw [hr] at hlt; omega
      | cons x r =>
        have : m = x := by
          have h1 := hget
          rw [← hr, List.getElem?_append_right (le_refl _)] at h1
          simpa using h1.symm
        exact ⟨r, by rw [this, ← hr]; simp⟩
    obtain ⟨l, hl, hmem, hnd⟩ := ih (before ++ [m]) hb' (by simp; omega)
    have hin : m ∈ before ↔ ∃ n' < before.length, materials[n']? = some m := by
      constructor
      · intro hm
        obtain ⟨n', hn', he⟩ := List.getElem_of_mem hm
        exact ⟨n', hn', by rw [hpre n' hn', List.getElem?_eq_getElem hn', he]⟩
      · rintro ⟨n', hn', he⟩
        rw [hpre n' hn'] at he
        exact List.mem_of_getElem? he
    have hmem' : ∀ k b, (k, b) ∈ l ↔ ∃ n : ℕ, as[n]? = some b ∧ materials[before.length + (n + 1)]? = some (k - 1) ∧
        ∀ n' < before.length + (n + 1), materials[n']? ≠ some (k - 1) := by
      intro k b
      rw [hmem]
      simp only [List.length_append, List.length_singleton]
      refine exists_congr fun n => ?_
      rw [show before.length + 1 + n = before.length + (n + 1) by omega]
    refine ⟨if m ∈ before then l else (m + 1, a) :: l, by simp [matBlocks, hget, hl], fun k b => ?_, ?_⟩
    · have hsplit : (∃ n : ℕ, (a :: as)[n]? = some b ∧ materials[before.length + n]? = some (k - 1) ∧
          ∀ n' < before.length + n, materials[n']? ≠ some (k - 1)) ↔
          (a = b ∧ m = k - 1 ∧ m ∉ before) ∨ (k, b) ∈ l := by
        rw [hmem']
        constructor
        · rintro ⟨n, h1, h2, h3⟩
          cases n with
          | zero =>
            left
            rw [Nat.add_zero, hget, Option.some.injEq] at h2
            refine ⟨by simpa using h1, h2, fun hm => ?_⟩
            obtain ⟨n', hn', he⟩ := hin.1 hm
            exact h3 n' (by omega) (by rw [he, h2])
          | succ n => exact Or.inr ⟨n, by simpa using h1, h2, h3⟩
        · rintro (⟨rfl, h2, h3⟩ | ⟨n, h1, h2, h3⟩)
          · refine ⟨0, rfl, by rw [Nat.add_zero, hget, h2], fun n' hn' he => h3 ?_⟩
            rw [Nat.add_zero] at hn'
            exact hin.2 ⟨n', hn', by rw [he, h2]⟩
          · exact ⟨n + 1, by simpa using h1, h2, h3⟩
      rw [hsplit]
      split_ifs with hm
      · simp [hm]
      · simp only [List.mem_cons, Prod.mk.injEq, hm, not_false_eq_true, and_true]
        refine or_congr ⟨?_, ?_⟩ Iff.rfl
        · rintro ⟨rfl, rfl⟩; exact ⟨rfl, by ring⟩
        · rintro ⟨rfl, h2⟩; exact ⟨by rw [h2]; ring, rfl⟩
    · split_ifs with hm
      · exact hnd
      · rw [List.map_cons, List.nodup_cons]
        refine ⟨fun hc => ?_, hnd⟩
        obtain ⟨p, hp, he⟩ := List.mem_map.1 hc
        obtain ⟨k, b⟩ := p
        simp only at he
        subst he
        obtain ⟨n, _, _, h3⟩ := (hmem' _ _).1 hp
        exact h3 before.length (by omega) (by rw [hget]; congr 1; ring)

/-- **C62 (blocks).** With a list of materials that is not too short, `dump_mat` writes one block for every material of a
magnetic atom, numbered from one (number in the .UCF file plus one), with the data of the first atom of that material, and
no material twice; the printed number of materials is the largest of the whole list plus one. -/
theorem C62_blocks (order : List Atom → List Atom) (m : List ℤ) (s : St K) (hne : m ≠ [])
    (hm : (s.magneticAtoms order).length ≤ m.length) :
    ∃ f, dumpMat order (some m) s = .ok f ∧
      (∀ k a, (k, a) ∈ f.blocks ↔ ∃ n : ℕ, (s.magneticAtoms order)[n]? = some a ∧ m[n]? = some (k - 1) ∧
        ∀ n' < n, m[n']? ≠ some (k - 1)) ∧
      (f.blocks.map Prod.fst).Nodup ∧ (∃ x ∈ m, f.count = x + 1) ∧ ∀ x ∈ m, x + 1 ≤ f.count := by
  obtain ⟨l, hl, h1, h2⟩ := matBlocks_spec m (s.magneticAtoms order) [] List.nil_prefix (by simpa using hm)
  cases hx : m.max? with
  | none => exact absurd (List.max?_eq_none_iff.1 hx) hne
  | some x =>
    have hmax := List.max?_eq_some_iff.1 hx
    refine ⟨⟨x + 1, l⟩, by simp [dumpMat, hx, hl], fun k a => ?_, h2, ⟨x, hmax.1, rfl⟩, fun y hy => ?_⟩
    · rw [h1]; simp
    · have := hmax.2 y hy
      simp only; omega

/-- **C62 (blocks, default).** Without a list every atom is a material of its own. -/
theorem C62_default (order : List Atom → List Atom) (s : St K) :
    ∃ f, dumpMat order none s = .ok f ∧ f.count = (s.magneticAtoms order).length ∧
      ∀ k a, (k, a) ∈ f.blocks ↔ ∃ n : ℕ, (s.magneticAtoms order)[n]? = some a ∧ k = n + 1 := by
  refine ⟨_, rfl, rfl, fun k a => ?_⟩
  simp only [List.mem_map, Prod.exists, Prod.mk.injEq, List.mem_zipIdx_iff_getElem?]
  constructor
  · rintro ⟨b, n, h1, h2, rfl⟩; exact ⟨n, h1, h2.symm⟩
  · rintro ⟨n, h1, h2⟩; exact ⟨a, n, h1, h2.symm, rfl⟩

/-- **C62 (numbers of materials), what is provable.** The number of materials in the .UCF file (different entries) and in the
.mat file (largest entry plus one) are equal exactly if the list, with entries from zero on, leaves out no number below its
largest entry. -/
theorem C62_counts_partial [DecidableEq K] (h2 : (2 : K) ≠ 0) (order : List Atom → List Atom)
    (hord : ∀ l, (order l).Perm l) (energy : K) (mask : Mask K) (m : List ℤ) (hne : m ≠ []) (hpos : ∀ x ∈ m, 0 ≤ x)
    (sp : Atom → K) (s : St K) (hs : s.Paired) (hsp : s.Spins sp) (hc : s.Complete)
    (hm : (s.magneticAtoms order).length ≤ m.length) (u : Ucf K) (t : St K)
    (hu : dumpUcf order energy mask (some m) s = (.ok u, t)) (f : Mat) (hf : dumpMat order (some m) s = .ok f) :
    (u.nMaterials : ℤ) = f.count ↔ ∀ k : ℤ, 0 ≤ k → k < f.count → k ∈ m := by
  obtain ⟨u', t', v, items, h⟩ := dump_spec Unit h2 hord energy mask (some m) hs hsp hc (fun m' hm' => by cases hm'; exact hm)
  rw [h.dump] at hu
  cases hu
  obtain ⟨f', hf', _, _, ⟨x, hx, hcnt⟩, hle⟩ := C62_blocks order m s hne hm
  rw [hf] at hf'
  cases hf'
  have hn : u.nMaterials = m.toFinset.card := by rw [h.nMaterials]; rfl
  have hsub : m.toFinset ⊆ Finset.Ico 0 f.count := by
    intro y hy
    rw [List.mem_toFinset] at hy
    rw [Finset.mem_Ico]
    exact ⟨hpos y hy, by have := hle y hy; omega⟩
  have hcard : ((Finset.Ico 0 f.count).card : ℤ) = f.count := by
    rw [Int.card_Ico, sub_zero, Int.toNat_of_nonneg]
    have := hpos x hx
    omega
  rw [hn]
  constructor
  · intro heq k hk0 hk
    have : m.toFinset = Finset.Ico 0 f.count := Finset.eq_of_subset_of_card_le hsub (by
      rw [← hcard] at heq
      exact_mod_cast heq.ge)
    rw [← List.mem_toFinset, this, Finset.mem_Ico]
    exact ⟨hk0, hk⟩
  · intro hall
    have : m.toFinset = Finset.Ico 0 f.count := by
      refine Finset.Subset.antisymm hsub fun k hk => ?_
      rw [Finset.mem_Ico] at hk
      rw [List.mem_toFinset]
      exact hall k hk.1 hk.2
    rw [this, hcard]

/-! ### Examples and false statements -/

namespace VampireExample

open HistoryExample DictExample NotationExample IterExample

/-- Default mask. -/
def full : Mask ℚ := ⟨true, true, none⟩

/-- A bond of an atom with itself, counted once. -/
def selfOnce : List (Op ℚ) :=
  [.setNotation (.seq [0, 0, 1]), .addExchange (.atom fe1) (.atom fe1) (0, 0, 0) (.fresh mB)]

/-- A Hamiltonian whose atoms have no spins. -/
def noSpin : St ℚ := runOps [.setNotation (.seq [0, 0, 1]), .addExchange (.atom fe1) (.atom fe2) (1, 0, 0) (.fresh mB)]
  (St.empty ⟨fun _ => 0, 0⟩ [fe1] (fun _ => none) (fun _ => 1))

/-- The hypotheses of `C53_turned` and `C53_lines_partial` hold for a bond that is counted once in the orientation that is
not canonical; the export turns it around. -/
example : (runOps wrongSide s0).Paired ∧ (runOps wrongSide s0).Spins (fun _ => 5 / 2) ∧ (runOps wrongSide s0).Complete ∧
    (runOps wrongSide s0).exch.keys = [(fe1, fe2, (-1, 0, 0))] ∧
    (dumpUcf id 2 full none (runOps wrongSide s0)).2.exch.keys = [(fe2, fe1, (1, 0, 0))] := by
  refine ⟨⟨St.sound_of_lists ?_ ?_ ?_ ?_ ?_ ?_ ?_ ?_, fun h => ?_, ?_⟩, ?_,
    ⟨false, false, 1, 1, by decide +kernel, by norm_num, by norm_num⟩, ?_, ?_⟩
  on_goal 9 => exact absurd h (by decide +kernel)
  on_goal 10 => exact fun a _ => ⟨rfl, by norm_num⟩
  all_goals first | decide +kernel | (intro _; decide +kernel)

/-- The hypotheses of C53 and C61 hold, the file has five interactions, the energies differ. -/
example : s1.WellFormed ∧ s1.Spins (fun _ => 5 / 2) ∧ s1.Complete ∧ (s1.magneticAtoms id).length = 2 ∧
    (dumpUcf id 2 full (some [1, 0]) s1).1.toOption.map (fun u => (u.count, u.lines.length, u.atoms.map (·.2.2))) =
      some (5, 5, [1, 0]) ∧
    (dumpUcf id 2 full none s1).1.toOption.map (fun u => u.energy cfg) = some (2 * (675 / 4 - 3 / 4 * (75 / 4))) := by
  refine ⟨s1_wf.1, s1_wf.2, s1_complete, ?_, ?_, ?_⟩ <;> decide +kernel

end VampireExample

/-- The full statement of C53 about the Hamiltonian, for Hamiltonians built by any history of calls. -/
def C53_statement : Prop :=
  ∀ (m : Mem ℚ) (atoms : List Atom) (sp : Atom → Option ℚ) (dist : Bond → ℚ) (hist : List (Op ℚ)) (s : St ℚ),
    runOps hist (St.empty m atoms sp dist) = s → s.Complete → ∀ (energy : ℚ) (mask : Mask ℚ) (mats : Option (List ℤ)),
      SameHam s (dumpUcf id energy mask mats s).2

open VampireExample HistoryExample DictExample NotationExample in
/-- **C53 is false of the code.** (1) With a list of materials that is too short `IndexError` is raised and the Hamiltonian
stays in the notation "vampire".  (2) If an atom has no spin, `ValueError` is raised half-way through the change of the
notation, and double counting has been switched on.  (3) A bond of an atom with itself counted once is lost. -/
theorem C53_unchanged_false :
    ((dumpUcf id 2 full (some [0]) s1).1.toOption.isNone ∧
      s1.getNotation = .ok (true, true, -1, -1) ∧
      (dumpUcf id 2 full (some [0]) s1).2.getNotation = .ok (true, true, -(1 / 2), -1)) ∧
    (noSpin.getNotation = .ok (false, false, 1, 1) ∧ (dumpUcf id 2 full none noSpin).1.toOption.isNone ∧
      (dumpUcf id 2 full none noSpin).2.dc = some true) ∧
    ((runOps selfOnce s0).exch.length = 1 ∧ (dumpUcf id 2 full none (runOps selfOnce s0)).1.toOption.isSome ∧
      (dumpUcf id 2 full none (runOps selfOnce s0)).2.exch = []) ∧
    ¬ C53_statement := by
  refine ⟨by decide +kernel, by decide +kernel, by decide +kernel, fun h => ?_⟩
  have h1 := (h ⟨fun _ => 0, 0⟩ [fe1] (fun _ => none) (fun _ => 1) _ noSpin rfl
    ⟨false, false, 1, 1, by decide +kernel, by norm_num, by norm_num⟩ 2 full none).notation'
  revert h1
  decide +kernel

open VampireExample HistoryExample DictExample NotationExample IterExample in
/-- **C61 is false of the code**: with an on-site term the exported energy is not the energy of the Hamiltonian. -/
theorem C61_energy_false :
    s1.WellFormed ∧ ∃ u t, dumpUcf id 1 full none s1 = (.ok u, t) ∧
      some (u.energy cfg) ≠ s1.physics cfg (fun _ => 5 / 2) := by
  refine ⟨s1_wf.1, ?_⟩
  obtain ⟨u, t, h, _⟩ := C53_unchanged_partial (K := ℚ) two_ne_zero id (fun _ => List.Perm.refl _) 1 full none
    (fun _ => 5 / 2) s1 s1_wf.1 s1_wf.2 s1_complete (fun m hm => by cases hm)
  refine ⟨u, t, h, fun hE => ?_⟩
  have h1 := (C61_energy_partial (K := ℚ) (Γ := Unit) two_ne_zero three_ne_zero id (fun _ => List.Perm.refl _) 1 one_ne_zero full
    ⟨rfl, rfl, rfl⟩ none (fun _ => 5 / 2) s1 s1_wf.1.paired s1_wf.2 true true (-1) (-1) (by decide +kernel) (by norm_num)
    (by norm_num) (fun m hm => by cases hm) u t h cfg).2
  have h2 : cfg.sites (weight true fun _ => 5 / 2) s1.onSiteItems = 0 := h1.1 (by rw [hE]; simp)
  revert h2
  decide +kernel

open VampireExample HistoryExample DictExample NotationExample in
/-- **C62 is false of the code**: with the materials 0 and 2 the .UCF file says two materials, the .mat file three, and there
are blocks for the materials 1 and 3 only. -/
theorem C62_counts_false :
    (dumpUcf id 1 full (some [0, 2]) s1).1.toOption.map (·.nMaterials) = some 2 ∧
    (dumpMat id (some [0, 2]) s1).toOption.map (·.count) = some 3 ∧
    (dumpMat id (some [0, 2]) s1).toOption.map (·.blocks) = some [(1, fe1), (3, fe2)] := by
  decide +kernel

open VampireExample HistoryExample DictExample in
/-- C62: three entries for two atoms of the same material. -/
example : (dumpMat id (some [1, 1, 0]) s1).toOption.map (·.blocks) = some [(2, fe1)] ∧
    (dumpMat id (some [1, 1, 0]) s1).toOption.map (·.count) = some 2 ∧
    (dumpUcf id 1 full (some [1, 1, 0]) s1).1.toOption.map (·.nMaterials) = some 2 := by
  decide +kernel

end Magnopy
