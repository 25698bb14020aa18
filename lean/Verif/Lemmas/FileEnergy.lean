import Verif.Spec.Reader
import Verif.Spec.Hdf5
import Verif.Spec.WellFormed
import Verif.Lemmas.HamRenote

/-!
# Lemmas: sums over the parameters of Hamiltonians whose atoms correspond by name
-/

set_option autoImplicit false
set_option linter.unusedSectionVars false

namespace Magnopy

open PyDict

variable {K : Type*} [Field K]

namespace St

theorem sum_bonds {X : Type*} [AddCommMonoid X] {s : St K} (hk : s.KeysNodup) (G : Bond → M3 K → X) :
    (s.exchangeItems.map fun p => G p.1 p.2).sum = ∑ b ∈ s.exch.keys.toFinset, G b ((s.valE b).getD 0) := by
  rw [List.sum_toFinset _ hk.exch, exchangeItems, List.map_map, keys, List.map_map]
  congr 1
  refine List.map_congr_left fun p hp => ?_
  have := get?_of_mem hk.exch (k := p.1) (v := p.2) hp
  simp [valE, this]

theorem sum_sites {X : Type*} [AddCommMonoid X] {s : St K} (hk : s.KeysNodup) (G : Atom → M3 K → X) :
    (s.onSiteItems.map fun p => G p.1 p.2).sum = ∑ b ∈ s.onSite.keys.toFinset, G b ((s.valO b).getD 0) := by
  rw [List.sum_toFinset _ hk.site, onSiteItems, List.map_map, keys, List.map_map]
  congr 1
  refine List.map_congr_left fun p hp => ?_
  have := get?_of_mem hk.site (k := p.1) (v := p.2) hp
  simp [valO, this]

theorem mem_keys_valE {s : St K} {b : Bond} : b ∈ s.exch.keys ↔ (s.valE b).isSome := by
  rw [valE, Option.isSome_map, Option.isSome_iff_ne_none, Ne, get?_eq_none_iff, not_not]

theorem mem_keys_valO {s : St K} {b : Atom} : b ∈ s.onSite.keys ↔ (s.valO b).isSome := by
  rw [valO, Option.isSome_map, Option.isSome_iff_ne_none, Ne, get?_eq_none_iff, not_not]

end St

/-- `φ` gives for every atom of `l` the atom of `l'` with the same name. -/
structure Renames (l l' : List Atom) (φ : Atom → Atom) : Prop where
  mem : ∀ a ∈ l, φ a ∈ l'
  name : ∀ a ∈ l, (φ a).name = a.name
  inj : ∀ a ∈ l, ∀ b ∈ l, φ a = φ b → a = b
  surj : ∀ a' ∈ l', ∃ a ∈ l, φ a = a'

theorem nodup_names {l : List Atom} (h : (l.map Atom.name).Nodup) {a b : Atom} (ha : a ∈ l) (hb : b ∈ l) (e : a.name = b.name) : a = b :=
  List.inj_on_of_nodup_map h ha hb e

theorem exists_renames {l l' : List Atom} (hu : (l.map Atom.name).Nodup) (hp : (l'.map Atom.name).Perm (l.map Atom.name)) :
    ∃ φ, Renames l l' φ := by
  have hu' : (l'.map Atom.name).Nodup := hp.nodup_iff.2 hu
  have hex : ∀ a, ∃ a', a ∈ l → a' ∈ l' ∧ a'.name = a.name := by
    intro a
    by_cases ha : a ∈ l
    · obtain ⟨a', h1, h2⟩ := List.mem_map.1 (hp.mem_iff.2 (List.mem_map_of_mem (f := Atom.name) ha))
      exact ⟨a', fun _ => ⟨h1, h2⟩⟩
    · exact ⟨a, fun h => absurd h ha⟩
  choose φ hφ using hex
  refine ⟨φ, fun a ha => (hφ a ha).1, fun a ha => (hφ a ha).2, fun a ha b hb e => ?_, fun a' ha' => ?_⟩
  · exact nodup_names hu ha hb (by rw [← (hφ a ha).2, ← (hφ b hb).2, e])
  · obtain ⟨a, h1, h2⟩ := List.mem_map.1 (hp.mem_iff.1 (List.mem_map_of_mem (f := Atom.name) ha'))
    exact ⟨a, h1, nodup_names hu' (hφ a h1).1 ha' ((hφ a h1).2.trans h2)⟩

/-- The bond between the atoms of the same names. -/
def renameBond (φ : Atom → Atom) (b : Bond) : Bond := (φ b.1, φ b.2.1, b.2.2)

variable {s s' : St K} {φ : Atom → Atom}

theorem Renames.keysE (h : Renames s.atoms s'.atoms φ) (hr : s.Refer) (hr' : s'.Refer)
    (hv : ∀ a ∈ s.atoms, ∀ b ∈ s.atoms, ∀ R, (s'.valE (φ a, φ b, R)).isSome = (s.valE (a, b, R)).isSome) :
    s'.exch.keys.toFinset = s.exch.keys.toFinset.image (renameBond φ) := by
  ext b'
  simp only [List.mem_toFinset, Finset.mem_image]
  constructor
  · intro hb
    obtain ⟨h1, h2⟩ := hr'.exch b' hb
    obtain ⟨a, ha, ea⟩ := h.surj _ h1
    obtain ⟨b, hb', eb⟩ := h.surj _ h2
    refine ⟨(a, b, b'.2.2), ?_, ?_⟩
    · rw [St.mem_keys_valE, ← hv a ha b hb', ea, eb, ← St.mem_keys_valE]; exact hb
    · simp only [renameBond, ea, eb]
  · rintro ⟨b, hb, rfl⟩
    obtain ⟨h1, h2⟩ := hr.exch b hb
    rw [St.mem_keys_valE, renameBond, hv _ h1 _ h2, ← St.mem_keys_valE]
    exact hb

theorem Renames.keysO (h : Renames s.atoms s'.atoms φ) (hr : s.Refer) (hr' : s'.Refer)
    (hv : ∀ a ∈ s.atoms, (s'.valO (φ a)).isSome = (s.valO a).isSome) :
    s'.onSite.keys.toFinset = s.onSite.keys.toFinset.image φ := by
  ext b'
  simp only [List.mem_toFinset, Finset.mem_image]
  constructor
  · intro hb
    obtain ⟨a, ha, ea⟩ := h.surj _ (hr'.site b' hb)
    refine ⟨a, ?_, ea⟩
    rw [St.mem_keys_valO, ← hv a ha, ea, ← St.mem_keys_valO]; exact hb
  · rintro ⟨b, hb, rfl⟩
    rw [St.mem_keys_valO, hv _ (hr.site b hb), ← St.mem_keys_valO]
    exact hb

/-- The sum over the bonds of `s'` as a sum over those of `s`. -/
theorem Renames.sumE {X : Type*} [AddCommMonoid X] (h : Renames s.atoms s'.atoms φ) (hr : s.Refer) (hr' : s'.Refer) (hk' : s'.KeysNodup)
    (hv : ∀ a ∈ s.atoms, ∀ b ∈ s.atoms, ∀ R, (s'.valE (φ a, φ b, R)).isSome = (s.valE (a, b, R)).isSome) (G : Bond → M3 K → X) :
    (s'.exchangeItems.map fun p => G p.1 p.2).sum =
      ∑ b ∈ s.exch.keys.toFinset, G (renameBond φ b) ((s'.valE (renameBond φ b)).getD 0) := by
  rw [St.sum_bonds hk', h.keysE hr hr' hv, Finset.sum_image]
  intro b hb b' hb' e
  simp only [List.mem_toFinset, Finset.mem_coe] at hb hb'
  simp only [renameBond, Prod.mk.injEq] at e
  obtain ⟨h1, h2⟩ := hr.exch b hb
  obtain ⟨h3, h4⟩ := hr.exch b' hb'
  exact Prod.ext (h.inj _ h1 _ h3 e.1) (Prod.ext (h.inj _ h2 _ h4 e.2.1) e.2.2)

theorem Renames.sumO {X : Type*} [AddCommMonoid X] (h : Renames s.atoms s'.atoms φ) (hr : s.Refer) (hr' : s'.Refer) (hk' : s'.KeysNodup)
    (hv : ∀ a ∈ s.atoms, (s'.valO (φ a)).isSome = (s.valO a).isSome) (G : Atom → M3 K → X) :
    (s'.onSiteItems.map fun p => G p.1 p.2).sum = ∑ b ∈ s.onSite.keys.toFinset, G (φ b) ((s'.valO (φ b)).getD 0) := by
  rw [St.sum_sites hk', h.keysO hr hr' hv, Finset.sum_image]
  intro b hb b' hb' e
  simp only [List.mem_toFinset, Finset.mem_coe] at hb hb'
  exact h.inj _ (hr.site b hb) _ (hr.site b' hb') e

section Config

variable {Γ : Type*} [AddCommGroup Γ] [Fintype Γ] {c c' : Config K Γ} {sp sp' : Atom → K}

theorem ByName.weight {l l' : List Atom} (hc : ByName l l' c c' sp sp') (n : Bool) {a a' : Atom} (ha : a ∈ l) (ha' : a' ∈ l')
    (e : a'.name = a.name) : weight n sp' a' = weight n sp a := by
  rw [Magnopy.weight, Magnopy.weight, (hc.spins a ha a' ha' e).1]

/-- The energy of equal parameters of atoms with equal names. -/
theorem energy_renamed (hu : (s.atoms.map Atom.name).Nodup) (hp : (s'.atoms.map Atom.name).Perm (s.atoms.map Atom.name))
    (hr : s.Refer) (hr' : s'.Refer) (hk : s.KeysNodup) (hk' : s'.KeysNodup)
    (hE : ∀ a ∈ s.atoms, ∀ b ∈ s.atoms, ∀ a' ∈ s'.atoms, ∀ b' ∈ s'.atoms, a'.name = a.name →
      b'.name = b.name → ∀ R, s'.valE (a', b', R) = s.valE (a, b, R))
    (hO : ∀ a ∈ s.atoms, ∀ a' ∈ s'.atoms, a'.name = a.name → s'.valO a' = s.valO a)
    (hc : ByName s.atoms s'.atoms c c' sp sp') (n : Bool) (e o : K) : s'.energy c' n sp' e o = s.energy c n sp e o := by
  obtain ⟨φ, h⟩ := exists_renames hu hp
  have hE' : ∀ a ∈ s.atoms, ∀ b ∈ s.atoms, ∀ R, s'.valE (φ a, φ b, R) = s.valE (a, b, R) := fun a ha b hb R =>
    hE a ha b hb _ (h.mem a ha) _ (h.mem b hb) (h.name a ha) (h.name b hb) R
  have hO' : ∀ a ∈ s.atoms, s'.valO (φ a) = s.valO a := fun a ha => hO a ha _ (h.mem a ha) (h.name a ha)
  have hw : ∀ a ∈ s.atoms, weight n sp' (φ a) = weight n sp a ∧ c'.σ (φ a) = c.σ a := fun a ha =>
    ⟨hc.weight n ha (h.mem a ha) (h.name a ha), (hc.spins a ha _ (h.mem a ha) (h.name a ha)).2⟩
  unfold St.energy classicalEnergy Config.bonds Config.sites
  congr 2
  · rw [h.sumE hr hr' hk' (fun a ha b hb R => by rw [hE' a ha b hb R]) fun b m => weight n sp' b.1 * weight n sp' b.2.1 * c'.bond b m,
      St.sum_bonds hk fun b m => weight n sp b.1 * weight n sp b.2.1 * c.bond b m]
    refine Finset.sum_congr rfl fun b hb => ?_
    obtain ⟨h1, h2⟩ := hr.exch b (List.mem_toFinset.1 hb)
    simp only [renameBond, hE' _ h1 _ h2, Config.bond, (hw _ h1).1, (hw _ h1).2, (hw _ h2).1, (hw _ h2).2, hc.supercell]
  · rw [h.sumO hr hr' hk' (fun a ha => by rw [hO' a ha]) fun b m => weight n sp' b * weight n sp' b * c'.site b m,
      St.sum_sites hk fun b m => weight n sp b * weight n sp b * c.site b m]
    refine Finset.sum_congr rfl fun b hb => ?_
    have h1 := hr.site b (List.mem_toFinset.1 hb)
    simp only [hO' _ h1, Config.site, (hw _ h1).1, (hw _ h1).2]

end Config

end Magnopy
