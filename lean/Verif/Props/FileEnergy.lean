import Verif.Lemmas.FileEnergy
import Verif.Lemmas.FreeNotation
import Verif.Props.Reader
import Verif.Props.Reversal

/-!
# Files keep the physics (C85)
-/

set_option autoImplicit false
set_option linter.unusedSectionVars false

namespace Magnopy

open PyDict H5

variable {K : Type} [Field K] [LinearOrder K] [IsStrictOrderedRing K] {L : Txt.Lib K} {x : Full K} {f : File K} {name : Str} {ow : Bool}

/-- The statement that an HDF5 file keeps the physics: the classical energy of every configuration of every supercell, according
to the notation of the Hamiltonian, is the same after writing and reading. -/
def C85_statement (K : Type) [Field K] [LinearOrder K] [IsStrictOrderedRing K] : Prop :=
  ∀ (L : Txt.Lib K), L.Unit → ∀ x : Full K, Storable x → x.ham.Complete → ∀ (f : File K) (name : Str), f.get? name = none →
    ∃ y, (dump x name false f).err = none ∧ load L (some name) (dump x name false f).st = .ok y ∧
      ∀ (Γ : Type) [AddCommGroup Γ] [Fintype Γ] (c c' : Config K Γ) (sp sp' : Atom → K),
        ByName x.ham.atoms y.ham.atoms c c' sp sp' → y.ham.physics c' sp' = x.ham.physics c sp

theorem H5.Same.energy {y : Full K} (h : Storable x) (hs : Same x y) (hk : y.ham.KeysNodup) {Γ : Type} [AddCommGroup Γ] [Fintype Γ]
    {c c' : Config K Γ} {sp sp' : Atom → K} (hc : ByName x.ham.atoms y.ham.atoms c c' sp sp') (n : Bool) (e o : K) :
    y.ham.energy c' n sp' e o = x.ham.energy c n sp e o :=
  energy_renamed h.unique hs.names h.inv.refer hs.refer h.inv.nodup hk hs.exchange hs.onSite hc n e o

/-- **C85** (partial): the parameters which are read from an HDF5 file give the energies of those that were written; if there are
exchange and on-site parameters, the notation is read back too, so the energies according to the notation are the same.
Missing: Hamiltonians without exchange or without on-site parameters. -/
theorem C85_hdf5_energy_partial (hL : L.Unit) (h : Storable x) (hf : f.get? name = none ∨ ow = true) :
    ∃ y, (dump x name ow f).err = none ∧ load L (some name) (dump x name ow f).st = .ok y ∧
      ∀ (Γ : Type) [AddCommGroup Γ] [Fintype Γ] (c c' : Config K Γ) (sp sp' : Atom → K),
        ByName x.ham.atoms y.ham.atoms c c' sp sp' →
          (∀ n e o, y.ham.energy c' n sp' e o = x.ham.energy c n sp e o) ∧
          (x.ham.exch ≠ [] → x.ham.onSite ≠ [] → y.ham.physics c' sp' = x.ham.physics c sp) := by
  obtain ⟨y, h1, h2, h3, -⟩ := C51_roundtrip_partial hL h hf
  have ho := C84_own (.hdf5 h2)
  refine ⟨y, h1, h2, fun Γ _ _ c c' sp sp' hc => ⟨fun n e o => h3.energy h ho.inv.nodup hc n e o, fun hE hO => ?_⟩⟩
  have hn : y.ham.getNotation = x.ham.getNotation := by
    rw [St.getNotation, St.getNotation, h3.dc hE, h3.sn (Or.inl hE), h3.ef hE, h3.osf hO]
  unfold St.physics
  rw [hn]
  cases x.ham.getNotation with
  | error e => rfl
  | ok q => simp only [h3.energy h ho.inv.nodup hc]

theorem init_no_factor [DecidableEq K] {s : St K} {order : List Atom → List Atom} (hord : ∀ l, (order l).Perm l) (hr : s.Refer)
    (hk : s.KeysNodup) (ha : s.Alloc) (hs : s.NoShare) {d : Bool} {e : K} (hd : s.dc = some d) (he : s.ef = some e) (ho : s.osf = none)
    (hsp : ∀ a ∈ s.atoms, (s.spin a).isSome) (lat : M3 K) (g : Atom → K) :
    ∃ t, EnergyObj.init order lat g s = (.error .notationError, t) ∧ t.dc = some true := by
  obtain ⟨t, h1, -⟩ := St.setDC_ok hk hr ha hs true fun e => by cases e
  have h2 : t.osf = none := by have := St.setDC_osf s true; rw [h1] at this; exact this.trans ho
  have h3 : t.dc = some true := by have := St.setDC_dc s true; rw [h1] at this; exact this
  obtain ⟨l, hl⟩ : ∃ l, EnergyObj.mapAtoms s.spinOf (s.magneticAtoms order) = .ok l := by
    refine ⟨_, EnergyObj.mapAtoms_ok (spin := fun a => (s.spin a).getD 0) _ fun a ha => ?_⟩
    have hm : a ∈ s.atoms := by
      rcases (EnergyObj.mem_magneticAtoms hord a).1 ha with ⟨b, hb, rfl | rfl⟩ | hb
      · exact (hr.exch b hb).1
      · exact (hr.exch b hb).2
      · exact hr.site a hb
    obtain ⟨v, hv⟩ := Option.isSome_iff_exists.1 (hsp a hm)
    rw [hv]; rfl
  refine ⟨t, ?_, h3⟩
  unfold EnergyObj.init
  have h4 : LikeIter.init t = .error .notationError := by
    unfold LikeIter.init
    rw [h2]
    cases t.ef <;> rfl
  simp only [he, hl, hd, h1, Res.err_ok, Res.st_ok, h4]

/-- **C85**: without on-site parameters the on-site factor is not stored, and `Energy` of the Hamiltonian that is read raises
`NotationError`, whatever the notation was when it was written; the flag of double counting of the Hamiltonian is then true. -/
theorem C85_hdf5_no_onsite (hL : L.Unit) (h : Storable x) (hE : x.ham.exch ≠ []) (hO : x.ham.onSite = [])
    (hf : f.get? name = none ∨ ow = true) :
    ∃ y, (dump x name ow f).err = none ∧ load L (some name) (dump x name ow f).st = .ok y ∧
      (∀ (Γ : Type) [AddCommGroup Γ] [Fintype Γ] (c : Config K Γ) (sp : Atom → K), y.ham.physics c sp = none) ∧
      ∀ order : List Atom → List Atom, (∀ l, (order l).Perm l) →
        ∃ t, EnergyObj.init order y.cell y.gFactor y.ham = (.error .notationError, t) ∧ t.dc = some true := by
  obtain ⟨y, h1, h2, h3, h4, h5, -, h7, -⟩ := C51_roundtrip_partial hL h hf
  have ho := C84_own (.hdf5 h2)
  refine ⟨y, h1, h2, fun Γ _ _ c sp => ?_, fun order hord => ?_⟩
  · unfold St.physics St.getNotation
    rw [h7 hO]
    cases y.ham.dc <;> cases y.ham.sn <;> cases y.ham.ef <;> rfl
  · obtain ⟨d, hd⟩ := Option.isSome_iff_exists.1 (h.dc hE)
    obtain ⟨e, he⟩ := Option.isSome_iff_exists.1 (h.ef hE)
    refine init_no_factor hord ho.inv.refer ho.inv.nodup ho.alloc ho.noShare ((h3.dc hE).trans hd) ((h3.ef hE).trans he) (h7 hO) (fun a ha => ?_) _ _
    obtain ⟨b, hb, e⟩ := List.mem_map.1 (h3.names.mem_iff.1 (List.mem_map_of_mem (f := Atom.name) ha))
    rw [h5 b hb a ha e.symm, Option.isSome_map]
    exact h.spins b hb

namespace FileEx

open H5.Ex

/-- The example without its on-site parameter. -/
def bonds : Full ℚ := { two with ham := { two.ham with onSite := [] } }

theorem bonds_storable : Storable bonds where
  inv := ⟨⟨by decide +kernel, by decide +kernel⟩, ⟨by decide +kernel, by decide +kernel⟩, fun _ => by decide +kernel⟩
  unique := two_storable.unique
  named := two_storable.named
  plain := two_storable.plain
  spins := fun _ _ => rfl
  sn := fun _ => rfl
  dc := fun _ => rfl
  ef := fun _ => rfl
  osf := fun _ => rfl
  cone := two_storable.cone

end FileEx

open FileEx in
/-- **C85**: the full statement is false of the code: the on-site factor of a Hamiltonian without on-site parameters is lost. -/
theorem C85_energy_false : ¬ C85_statement ℚ := by
  intro h
  obtain ⟨y, _, h2, h3⟩ := h H5.Ex.L H5.Ex.unit bonds bonds_storable ⟨true, false, 1 / 2, 1, rfl, by norm_num, by norm_num⟩ [] (Str.lit "h") rfl
  obtain ⟨y', _, g2, g3, -⟩ := C85_hdf5_no_onsite H5.Ex.unit bonds_storable (by decide +kernel) rfl (f := []) (name := Str.lit "h")
    (ow := false) (Or.inl rfl)
  rw [h2] at g2
  cases Except.ok.inj g2
  have := h3 Unit ⟨0, fun _ _ => 0⟩ ⟨0, fun _ _ => 0⟩ (fun _ => 0) (fun _ => 0) ⟨rfl, fun _ _ _ _ _ => ⟨rfl, rfl⟩⟩
  rw [g3] at this
  exact absurd this (by simp [St.physics, St.getNotation, bonds, H5.Ex.two])

open H5.Ex in
/-- C85: the energy of one cell with spins 3 and 5 along y and x is `½ · (3 · 3 · 5 + 1 · 5 · 3) + 2 · 5 · 5` before and, according to its own
notation, after the file. -/
example : ∃ y, load Ex.L (some (Str.lit "h")) (dump two (Str.lit "h") false []).st = .ok y ∧
    ∀ (c' : Config ℚ Unit) (sp' : Atom → ℚ), c'.τ = 0 →
      (∀ a ∈ y.ham.atoms, (a.name = "Aa" → sp' a = 3 ∧ c'.σ a () = ![0, 1, 0]) ∧ (a.name = "Ab" → sp' a = 5 ∧ c'.σ a () = ![1, 0, 0])) →
      y.ham.physics c' sp' = two.ham.physics (Γ := Unit) ⟨0, fun a _ => if a.index = 1 then ![0, 1, 0] else ![1, 0, 0]⟩
        (fun a => if a.index = 1 then 3 else 5) ∧
      two.ham.physics (Γ := Unit) ⟨0, fun a _ => if a.index = 1 then ![0, 1, 0] else ![1, 0, 0]⟩
        (fun a => if a.index = 1 then 3 else 5) = some 80 := by
  obtain ⟨y, _, h2, h3⟩ := C85_hdf5_energy_partial unit two_storable (f := []) (name := Str.lit "h") (ow := false) (Or.inl rfl)
  refine ⟨y, h2, fun c' sp' ht hs => ⟨(h3 Unit _ c' _ sp' ⟨ht, ?_⟩).2 (by decide +kernel) (by decide +kernel), ?_⟩⟩
  swap
  · simp [St.physics, St.getNotation, two, St.energy, classicalEnergy, Config.bonds, Config.sites, Config.bond, Config.site, St.exchangeItems,
      St.onSiteItems, weight, bilin, Fin.sum_univ_three, A]
    norm_num
  intro a ha a' ha' e
  have : a = A 0 ∨ a = A 1 := by simpa [two] using ha
  rcases this with rfl | rfl
  · obtain ⟨q1, q2⟩ := (hs a' ha').1 (e.trans (by decide +kernel))
    exact ⟨q1, funext fun _ => q2⟩
  · obtain ⟨q1, q2⟩ := (hs a' ha').2 (e.trans (by decide +kernel))
    exact ⟨q1, funext fun _ => q2⟩

/-! ### Magnons -/

/-- `MagnonDispersion` does not depend on what the notation says about kinds of parameters that are not there. -/
theorem magnonInit_free {order : List Atom → List Atom} {lat : M3 ℝ} {pos : Atom → V3 ℝ} {spinVec : Atom → Option (V3 ℝ)} {s : St ℝ}
    {x m : Option Bool} {y z : Option ℝ} (h1 : s.exch ≠ [] → x = s.dc ∧ y = s.ef) (h2 : s.exch ≠ [] ∨ s.onSite ≠ [] → m = s.sn)
    (h3 : s.onSite ≠ [] → z = s.osf) {o : MagnonObj} {t : St ℝ}
    (h : MagnonObj.init order lat pos spinVec { s with dc := x, sn := m, ef := y, osf := z } = (.ok o, t)) :
    MagnonObj.init order lat pos spinVec s = (.ok o, t) := by
  have e1 : s.copy.exch ≠ [] → s.exch ≠ [] := fun h e => h (by show s.exch.map _ = []; rw [e]; rfl)
  have e2 : s.copy.onSite ≠ [] → s.onSite ≠ [] := fun h e => h (by show s.onSite.map _ = []; rw [e]; rfl)
  have hr := St.setFour_free true false (1 : ℝ) 1 s.copy x m y z (fun h => h1 (e1 h)) (fun h => h2 (h.imp e1 e2)) (fun h => h3 (e2 h))
  have hN : ∀ u : St ℝ, u.setNotation (.str "SpinW") = u.setFour true false 1 1 := by
    intro u
    have hp : St.predefined (K := ℝ) ("SpinW".toLower) = some (true, false, 1, 1) := by
      have : "SpinW".toLower = "spinw" := by decide +kernel
      rw [this]; rfl
    unfold St.setNotation
    simp only [hp]
  have e : ({ s with dc := x, sn := m, ef := y, osf := z } : St ℝ).copy = { s.copy with dc := x, sn := m, ef := y, osf := z } := rfl
  unfold MagnonObj.init at h ⊢
  rw [e] at h
  simp only [hN] at h ⊢
  cases he : (s.copy.setFour true false 1 1).err with
  | some w =>
    rw [hr.1, he] at h
    cases congrArg Prod.fst h
  | none =>
    rw [hr.2 he] at h
    simp only [he] at h ⊢
    exact h

/-- The bonds that are read are as the flag of double counting says if those written are. -/
theorem H5.Same.paired {x y : Full ℝ} (hs : Same x y) (hu : (x.ham.atoms.map Atom.name).Nodup) (hw : x.ham.Paired) (ho : y.ham.Own) :
    (∀ b ∈ y.ham.exch.keys, b.mirror ≠ b) ∧
      (x.ham.dc = some true → ∀ b, y.ham.valE b.mirror = (y.ham.valE b).map Matrix.transpose) ∧
      (x.ham.dc = some false → ∀ b ∈ y.ham.exch.keys, b.mirror ∉ y.ham.exch.keys) := by
  have hup := hs.names.nodup_iff.2 hu
  have back : ∀ a' ∈ y.ham.atoms, ∃ a ∈ x.ham.atoms, a'.name = a.name := fun a' ha' => by
    obtain ⟨a, h1, h2⟩ := List.mem_map.1 (hs.names.mem_iff.1 (List.mem_map_of_mem (f := Atom.name) ha'))
    exact ⟨a, h1, h2.symm⟩
  have key : ∀ b' ∈ y.ham.exch.keys, ∃ b ∈ x.ham.exch.keys, b'.1.name = b.1.name ∧ b'.2.1.name = b.2.1.name ∧ b'.2.2 = b.2.2 := by
    intro b' hb'
    obtain ⟨m1, m2⟩ := ho.inv.refer.exch b' hb'
    obtain ⟨a, ha, ea⟩ := back _ m1
    obtain ⟨b, hb, eb⟩ := back _ m2
    refine ⟨(a, b, b'.2.2), ?_, ea, eb, rfl⟩
    rw [St.mem_keys_valE, ← hs.exchange a ha b hb _ m1 _ m2 ea eb, ← St.mem_keys_valE]
    exact hb'
  refine ⟨fun b' hb' e => ?_, fun hd b' => ?_, fun hd b' hb' hm' => ?_⟩
  · obtain ⟨b, hb, e1, e2, e3⟩ := key b' hb'
    refine hw.noSelf b hb ?_
    obtain ⟨m1, m2⟩ := hw.refer.exch b hb
    simp only [Bond.mirror, Prod.ext_iff] at e ⊢
    refine ⟨nodup_names hu m2 m1 ?_, nodup_names hu m1 m2 ?_, ?_⟩
    · rw [← e1, ← e2, e.1]
    · rw [← e1, ← e2, e.1]
    · rw [← e3]; exact e.2.2
  · by_cases hm : b'.1 ∈ y.ham.atoms ∧ b'.2.1 ∈ y.ham.atoms
    · obtain ⟨a, ha, ea⟩ := back _ hm.1
      obtain ⟨b, hb, eb⟩ := back _ hm.2
      have h1 := hs.exchange a ha b hb _ hm.1 _ hm.2 ea eb b'.2.2
      have h2 := hs.exchange b hb a ha _ hm.2 _ hm.1 eb ea b'.mirror.2.2
      have h3 := hw.twice hd (a, b, b'.2.2)
      exact h2.trans (h3.trans (congrArg _ h1.symm))
    · have h1 : b' ∉ y.ham.exch.keys := fun h => hm (ho.inv.refer.exch b' h)
      have h2 : b'.mirror ∉ y.ham.exch.keys := fun h => hm (ho.inv.refer.exch _ h).symm
      rw [St.valE_eq_none_iff.2 h1, St.valE_eq_none_iff.2 h2]
      rfl
  · obtain ⟨b, hb, e1, e2, e3⟩ := key b' hb'
    obtain ⟨c, hc, g1, g2, g3⟩ := key _ hm'
    obtain ⟨m1, m2⟩ := hw.refer.exch b hb
    obtain ⟨n1, n2⟩ := hw.refer.exch c hc
    refine hw.single hd b hb ?_
    have : b.mirror = c := by
      simp only [Bond.mirror, Prod.ext_iff] at g1 g2 g3 ⊢
      refine ⟨nodup_names hu m2 n1 ?_, nodup_names hu m1 n2 ?_, ?_⟩
      · rw [← e2, ← g1]
      · rw [← e1, ← g2]
      · rw [← e3]; exact g3
    rw [this]; exact hc

section Magnon

open MagnonObj Matrix

/-- **C85**: if a Hamiltonian is written to an HDF5 file and read back, the magnon energies at all wave vectors are the same,
whatever part of the notation the file does not keep, and in whatever order the atoms come back.  The spins are the lengths of the spin
vectors. -/
theorem C85_hdf5_magnons {L : Txt.Lib ℝ} {x : Full ℝ} {f : File ℝ} {name : Str} {ow : Bool} {order order' : List Atom → List Atom}
    (hord : ∀ l, (order l).Perm l) (hord' : ∀ l, (order' l).Perm l) {spin : Atom → ℝ} (hL : L.Unit) (h : Storable x)
    (hf : f.get? name = none ∨ ow = true) (hr : MagnonReady order x.spinVec x.ham spin) (hs : x.ham.OnSiteSymmetric)
    (hsp : ∀ a ∈ x.ham.atoms, x.ham.spin a = (x.spinVec a).map L.norm) :
    ∃ y, (dump x name ow f).err = none ∧ load L (some name) (dump x name ow f).st = .ok y ∧
      ∃ o t o' t', init order x.cell x.pos x.spinVec x.ham = (.ok o, t) ∧ init order' y.cell y.pos y.spinVec y.ham = (.ok o', t') ∧
        o'.N = o.N ∧ ∀ k chol eig sort chol' eig' sort', IsCholesky chol → IsEig eig → IsSort sort → IsCholesky chol' →
          IsEig eig' → IsSort sort' → ∀ (junk : Mat o.N) (junk' : Mat o'.N) (z rg im : Bool),
            (o'.omega t'.cell (Colpa.solve chol' eig' sort') junk' z rg im k).1.1 =
              (o.omega t.cell (Colpa.solve chol eig sort) junk z rg im k).1.1 := by
  obtain ⟨y, h1, h2, h3, h4, h5, -, h7, -⟩ := C51_roundtrip_partial hL h hf
  refine ⟨y, h1, h2, ?_⟩
  have ho := C84_own (.hdf5 h2)
  obtain ⟨φ, hφ⟩ := exists_renames h.unique h3.names
  obtain ⟨w1, w2, w3⟩ := h3.paired h.unique hr.wf ho
  have hvE : ∀ a ∈ x.ham.atoms, ∀ b ∈ x.ham.atoms, ∀ R, y.ham.valE (φ a, φ b, R) = x.ham.valE (a, b, R) := fun a ha b hb R =>
    h3.exchange a ha b hb _ (hφ.mem a ha) _ (hφ.mem b hb) (hφ.name a ha) (hφ.name b hb) R
  have hvO : ∀ a ∈ x.ham.atoms, y.ham.valO (φ a) = x.ham.valO a := fun a ha => h3.onSite a ha _ (hφ.mem a ha) (hφ.name a ha)
  have hkE := hφ.keysE h.inv.refer ho.inv.refer fun a ha b hb R => by rw [hvE a ha b hb R]
  have hkO := hφ.keysO h.inv.refer ho.inv.refer fun a ha => by rw [hvO a ha]
  have hma : ∀ a ∈ x.ham.magneticAtoms order, a ∈ x.ham.atoms := fun a ha => by
    rcases (EnergyObj.mem_magneticAtoms hord a).1 ha with ⟨b, hb, rfl | rfl⟩ | hb
    · exact (h.inv.refer.exch b hb).1
    · exact (h.inv.refer.exch b hb).2
    · exact h.inv.refer.site a hb
  have hmag : ∀ a', a' ∈ y.ham.magneticAtoms order' ↔ ∃ a ∈ x.ham.magneticAtoms order, φ a = a' := by
    intro a'
    rw [EnergyObj.mem_magneticAtoms hord']
    have kE : ∀ b', b' ∈ y.ham.exch.keys ↔ ∃ b ∈ x.ham.exch.keys, renameBond φ b = b' := fun b' => by
      have := Finset.ext_iff.1 hkE b'
      simpa only [List.mem_toFinset, Finset.mem_image] using this
    have kO : ∀ b', b' ∈ y.ham.onSite.keys ↔ ∃ b ∈ x.ham.onSite.keys, φ b = b' := fun b' => by
      have := Finset.ext_iff.1 hkO b'
      simpa only [List.mem_toFinset, Finset.mem_image] using this
    constructor
    · rintro (⟨b', hb', e⟩ | hb')
      · obtain ⟨b, hb, rfl⟩ := (kE b').1 hb'
        rcases e with rfl | rfl
        · exact ⟨b.1, (EnergyObj.mem_magneticAtoms hord _).2 (Or.inl ⟨b, hb, Or.inl rfl⟩), rfl⟩
        · exact ⟨b.2.1, (EnergyObj.mem_magneticAtoms hord _).2 (Or.inl ⟨b, hb, Or.inr rfl⟩), rfl⟩
      · obtain ⟨b, hb, e⟩ := (kO a').1 hb'
        exact ⟨b, (EnergyObj.mem_magneticAtoms hord _).2 (Or.inr hb), e⟩
    · rintro ⟨a, ha, rfl⟩
      rcases (EnergyObj.mem_magneticAtoms hord a).1 ha with ⟨b, hb, rfl | rfl⟩ | hb
      · exact Or.inl ⟨_, (kE _).2 ⟨b, hb, rfl⟩, Or.inl rfl⟩
      · exact Or.inl ⟨_, (kE _).2 ⟨b, hb, rfl⟩, Or.inr rfl⟩
      · exact Or.inr ((kO _).2 ⟨a, hb, rfl⟩)
  -- the spins
  let spin' : Atom → ℝ := fun a' => (y.ham.spin a').getD 0
  have hspy : ∀ a ∈ x.ham.atoms, y.ham.spin (φ a) = some (spin a) := fun a ha => by
    rw [h5 a ha _ (hφ.mem a ha) (hφ.name a ha), ← hsp a ha, (hr.spins a ha).1]
  have hspin : ∀ a ∈ x.ham.atoms, spin' (φ a) = spin a := fun a ha => by
    show (y.ham.spin (φ a)).getD 0 = _
    rw [hspy a ha]; rfl
  have hvec : ∀ a ∈ x.ham.atoms, y.spinVec (φ a) = x.spinVec a := fun a ha => h3.spinVec a ha _ (hφ.mem a ha) (hφ.name a ha)
  -- the notation
  let s' : St ℝ := { y.ham with dc := x.ham.dc, sn := x.ham.sn, ef := x.ham.ef, osf := x.ham.osf }
  have hn : s'.getNotation = x.ham.getNotation := rfl
  have hws : s'.Paired := ⟨⟨⟨ho.inv.nodup.exch, ho.inv.nodup.site⟩, ⟨ho.inv.refer.exch, ho.inv.refer.site⟩, ⟨ho.alloc.exch, ho.alloc.site⟩,
    ⟨ho.noShare.exch, ho.noShare.site, ho.noShare.cross⟩, ho.index_inj, w1⟩, w2, w3⟩
  have hr' : MagnonReady order' y.spinVec s' spin' := by
    refine ⟨hws, fun a' ha' => ?_, ?_, fun a' ha' => ?_⟩
    · obtain ⟨a, ha, rfl⟩ := hφ.surj a' ha'
      rw [hspin a ha]
      exact ⟨hspy a ha, (hr.spins a ha).2⟩
    · obtain ⟨d, n, e, o, h8, h9⟩ := hr.complete
      exact ⟨d, n, e, o, hn.trans h8, h9⟩
    · obtain ⟨a, ha, rfl⟩ := (hmag a').1 ha'
      rw [hvec a (hma a ha)]
      exact hr.vectors a ha
  have hs' : s'.OnSiteSymmetric := fun a' m hm => by
    have hk : a' ∈ y.ham.onSite.keys := by
      rw [St.mem_keys_valO]
      exact Option.isSome_iff_exists.2 ⟨m, hm⟩
    obtain ⟨a, ha, rfl⟩ := hφ.surj a' (ho.inv.refer.site a' hk)
    exact hs a m ((hvO a ha).symm.trans hm)
  have hD : (Description.mk φ (fun _ => 0) 1 1 (.refl _)).Holds (x.ham.magneticAtoms order) (s'.magneticAtoms order') spin spin' x.ham s' := by
    refine ⟨⟨by simp, by simp⟩, by simp, fun a ha b hb e => hφ.inj a (hma a ha) b (hma b hb) e, hmag, fun a ha => hspin a (hma a ha), ?_⟩
    intro Γ _ _ c
    unfold St.physics
    rw [hn]
    have hc : ByName x.ham.atoms y.ham.atoms ((Description.mk φ (fun _ => 0) 1 1 (.refl _)).old c) c spin spin' := by
      refine ⟨?_, fun a ha a' ha' e => ?_⟩
      · ext R <;> rfl
      · have : a' = φ a := nodup_names (h3.names.nodup_iff.2 h.unique) ha' (hφ.mem a ha) (e.trans (hφ.name a ha).symm)
        subst this
        refine ⟨hspin a ha, ?_⟩
        funext n
        simp [Description.old]
    cases x.ham.getNotation with
    | error e => rfl
    | ok q => exact congrArg some (h3.energy h ho.inv.nodup hc q.2.1 q.2.2.1 q.2.2.2)
  have hM : (Description.mk φ (fun _ => 0) 1 1 (.refl _)).Moves (x.ham.magneticAtoms order) x.cell y.cell x.pos y.pos x.spinVec y.spinVec := by
    refine ⟨fun R => ?_, ⟨0, fun a ha => ?_⟩, fun a ha => ?_⟩
    · rw [h3.cell]; simp
    · rw [h3.cell, h3.pos a (hma a ha) _ (hφ.mem a (hma a ha)) (hφ.name a (hma a ha))]
      have : Cell.rel (0 : Cell) = (0 : V3 ℝ) := by funext i; fin_cases i <;> simp [Cell.rel]
      simp [this]
    · rw [hvec a (hma a ha)]; simp
  obtain ⟨o, t, o', t', g1, g2, g3, g4⟩ := C72_energies_partial (lat := x.cell) (lat' := y.cell) (pos := x.pos) (pos' := y.pos)
    (spinVec := x.spinVec) (spinVec' := y.spinVec) hord hord' hr hr' hs hs' hD hM (Or.inl rfl)
  refine ⟨o, t, o', t', g1, ?_, g3, fun k chol eig sort chol' eig' sort' e1 e2 e3 e4 e5 e6 junk junk' z rg im => ?_⟩
  · have hE : y.ham.exch ≠ [] → x.ham.exch ≠ [] := fun hy e => hy (by
      have : y.ham.exch.keys.toFinset = ∅ := by rw [hkE, e]; rfl
      rw [List.toFinset_eq_empty_iff] at this
      exact List.map_eq_nil_iff.1 this)
    have hO : y.ham.onSite ≠ [] → x.ham.onSite ≠ [] := fun hy e => hy (by
      have : y.ham.onSite.keys.toFinset = ∅ := by rw [hkO, e]; rfl
      rw [List.toFinset_eq_empty_iff] at this
      exact List.map_eq_nil_iff.1 this)
    exact magnonInit_free (fun hy => ⟨(h3.dc (hE hy)).symm, (h3.ef (hE hy)).symm⟩) (fun hy => (h3.sn (hy.imp hE hO)).symm)
      (fun hy => (h3.osf (hO hy)).symm) g2
  · have := g4 k chol eig sort chol' eig' sort' e1 e2 e3 e4 e5 e6 junk junk' z rg im
    simpa using this

namespace ChiralExample

open HistoryExample

/-- The chain with a crystal. -/
noncomputable def full : Full ℝ where
  cell := 1
  pos _ := 0
  spinVec _ := some ![0, 0, 1]
  gFactor _ := 2
  charge _ := none
  ham := st
  spiral := none
  cone := none

/-- A library whose lengths are right for unit vectors. -/
noncomputable def lib : Txt.Lib ℝ where
  float _ := none
  int _ := none
  alnum _ := true
  norm := EnergyObj.norm3
  sin _ := 0
  cos _ := 1
  recip m := m

theorem lib_unit : lib.Unit := fun v h => by
  show EnergyObj.norm3 v = 1
  unfold EnergyObj.norm3
  rw [show v 0 ^ 2 + v 1 ^ 2 + v 2 ^ 2 = 1 by rw [← h]; ring]
  simp

theorem full_storable : Storable full where
  inv := ⟨⟨show bond.keys.Nodup by decide, show (keys ([] : PyDict Atom ℕ)).Nodup by decide⟩,
    ⟨show ∀ b ∈ bond.keys, b.1 ∈ [fe1] ∧ b.2.1 ∈ [fe1] by decide, fun a ha => by cases ha⟩, fun h => by cases h⟩
  unique := show ([fe1].map Atom.name).Nodup by decide
  named := show ∀ a ∈ [fe1], a.name ≠ "" by decide
  plain := show ∀ a ∈ [fe1], ¬ ['_', '_'] <:+: a.name.toList by decide +kernel
  spins := fun _ _ => rfl
  sn := fun _ => rfl
  dc := fun _ => rfl
  ef := fun _ => rfl
  osf := fun _ => rfl
  cone := fun n h => by cases h

/-- C85: the chain without on-site parameters keeps its magnons, although the file loses the on-site factor. -/
example : ∃ y, load lib (some (Str.lit "h")) (dump full (Str.lit "h") false []).st = .ok y ∧ y.ham.osf = none ∧
    ∃ o t o' t', init id full.cell full.pos full.spinVec full.ham = (.ok o, t) ∧ init id y.cell y.pos y.spinVec y.ham = (.ok o', t') ∧
      o'.N = o.N ∧ ∀ k chol eig sort chol' eig' sort', IsCholesky chol → IsEig eig → IsSort sort → IsCholesky chol' → IsEig eig' → IsSort sort' →
        ∀ (junk : Mat o.N) (junk' : Mat o'.N) (z rg im : Bool), (o'.omega t'.cell (Colpa.solve chol' eig' sort') junk' z rg im k).1.1 = (o.omega t.cell (Colpa.solve chol eig sort) junk z rg im k).1.1 := by
  have hf : PyDict.get? ([] : File ℝ) (Str.lit "h") = none ∨ false = true := Or.inl rfl
  obtain ⟨y, _, h2, o, t, o', t', h3, h4, h5, h6⟩ := C85_hdf5_magnons (order := id) (order' := id) (fun _ => .refl _)
    (fun _ => .refl _) lib_unit full_storable hf (ready fun _ => rfl) symmetric
    (fun a _ => congrArg some (lib_unit ![0, 0, 1] (by simp)).symm)
  obtain ⟨y', _, g2, -, -, -, -, g3, -⟩ := C51_roundtrip_partial lib_unit full_storable hf
  rw [h2] at g2
  cases Except.ok.inj g2
  exact ⟨y, h2, g3 rfl, o, t, o', t', h3, h4, h5, h6⟩

/-- The chain without bonds, with an easy axis. -/
noncomputable def lone : Full ℝ :=
  { full with ham := { st with cell := fun _ => !![0, 0, 0; 0, 0, 0; 0, 0, -1], exch := [], onSite := [(fe1, 0)] } }

theorem lone_storable : Storable lone where
  inv := ⟨⟨show (keys ([] : PyDict Bond ℕ)).Nodup by decide, show (keys ([(fe1, 0)] : PyDict Atom ℕ)).Nodup by decide⟩,
    ⟨fun a ha => (by cases ha), show ∀ a ∈ keys ([(fe1, 0)] : PyDict Atom ℕ), a ∈ [fe1] by decide⟩, fun h => by cases h⟩
  unique := full_storable.unique
  named := full_storable.named
  plain := full_storable.plain
  spins := fun _ _ => rfl
  sn := fun _ => rfl
  dc := fun _ => rfl
  ef := fun _ => rfl
  osf := fun _ => rfl
  cone := fun n h => by cases h

theorem lone_ready : MagnonReady id lone.spinVec lone.ham fun _ => 1 := by
  refine ⟨⟨St.sound_of_lists ?_ ?_ ?_ ?_ ?_ ?_ ?_ ?_, fun h => (by cases h), fun _ b hb => (by cases hb)⟩, fun _ _ => ⟨rfl, one_ne_zero⟩,
    ⟨false, false, 1, 1, rfl, one_ne_zero, one_ne_zero⟩, fun a _ => rfl⟩
  · show (keys ([] : PyDict Bond ℕ)).Nodup; decide
  · show (keys ([(fe1, 0)] : PyDict Atom ℕ)).Nodup; decide
  · show (([] : PyDict Bond ℕ).map Prod.snd ++ ([(fe1, 0)] : PyDict Atom ℕ).map Prod.snd).Nodup; decide
  · show ∀ r ∈ ([] : PyDict Bond ℕ).map Prod.snd ++ ([(fe1, 0)] : PyDict Atom ℕ).map Prod.snd, r < 1; decide
  · show ∀ b ∈ keys ([] : PyDict Bond ℕ), b.1 ∈ [fe1] ∧ b.2.1 ∈ [fe1]; decide
  · show ∀ a ∈ keys ([(fe1, 0)] : PyDict Atom ℕ), a ∈ [fe1]; decide
  · show ∀ a ∈ [fe1], ∀ b ∈ [fe1], a.index = b.index → a = b; decide
  · show ∀ b ∈ keys ([] : PyDict Bond ℕ), b.mirror ≠ b; decide

/-- C85: without bonds the flag of double counting and the exchange factor are lost, and the magnons are the same. -/
example : ∃ y, load lib (some (Str.lit "h")) (dump lone (Str.lit "h") false []).st = .ok y ∧ y.ham.dc = none ∧ y.ham.ef = none ∧
    ∃ o t o' t', init id lone.cell lone.pos lone.spinVec lone.ham = (.ok o, t) ∧ init id y.cell y.pos y.spinVec y.ham = (.ok o', t') ∧
      o'.N = o.N ∧ ∀ k chol eig sort chol' eig' sort', IsCholesky chol → IsEig eig → IsSort sort → IsCholesky chol' → IsEig eig' → IsSort sort' →
        ∀ (junk : Mat o.N) (junk' : Mat o'.N) (z rg im : Bool), (o'.omega t'.cell (Colpa.solve chol' eig' sort') junk' z rg im k).1.1 = (o.omega t.cell (Colpa.solve chol eig sort) junk z rg im k).1.1 := by
  have hf : PyDict.get? ([] : File ℝ) (Str.lit "h") = none ∨ false = true := Or.inl rfl
  obtain ⟨y, _, h2, o, t, o', t', h3, h4, h5, h6⟩ := C85_hdf5_magnons (order := id) (order' := id) (fun _ => .refl _)
    (fun _ => .refl _) lib_unit lone_storable hf lone_ready (fun a m h => by
      obtain ⟨r, _, rfl⟩ := Option.map_eq_some_iff.1 h
      ext i j; fin_cases i <;> fin_cases j <;> rfl)
    (fun a _ => congrArg some (lib_unit ![0, 0, 1] (by simp)).symm)
  obtain ⟨y', _, g2, -, -, -, g3, -⟩ := C51_roundtrip_partial lib_unit lone_storable hf
  rw [h2] at g2
  cases Except.ok.inj g2
  exact ⟨y, h2, (g3 rfl).1, (g3 rfl).2, o, t, o', t', h3, h4, h5, h6⟩

end ChiralExample

end Magnon

end Magnopy
