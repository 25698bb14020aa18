import Verif.Lemmas.Hdf5
import Mathlib.Algebra.Order.Field.Rat
import Mathlib.Tactic.NormNum
import Mathlib.Tactic.Linarith
import Mathlib.Tactic.FinCases

/-!
# Properties C51, C52, C64, C65: HDF5 files and the choice of the reader
-/

set_option autoImplicit false
set_option linter.unusedSectionVars false

namespace Magnopy

open PyDict

namespace H5

section
variable {K : Type} [Field K]

theorem cellFactor_own [CharZero K] : cellFactor (Str.lit "Angstrom") = .ok (1 : K) := by
  have h1 : ((Str.lit "Angstrom").lower.startsWith (Str.lit "bohr")) = false := by decide +kernel
  have h2 : ((Str.lit "Angstrom").lower.startsWith (Str.lit "angstrom")) = true := by decide +kernel
  rw [cellFactor, h1, h2]
  simp [Txt.angstrom]

theorem energyFactor_own [CharZero K] : energyFactor energyName = .ok (1 : K) := by
  have h0 : energyName.lower = Str.lit "milli-electron-volt" := by decide +kernel
  have h1 : Str.lit "milli-electron-volt" ≠ Str.lit "rydberg" := by decide +kernel
  have h2 : Str.lit "milli-electron-volt" ≠ Str.lit "joule" := by decide +kernel
  have h3 : Str.lit "milli-electron-volt" ≠ Str.lit "kelvin" := by decide +kernel
  have h4 : Str.lit "milli-electron-volt" ≠ Str.lit "electron-volt" := by decide +kernel
  rw [energyFactor, h0, if_neg h1, if_neg h2, if_neg h3, if_neg h4, if_pos rfl]
  have : (Txt.energyUnit : K) ≠ 0 := by
    simp [Txt.energyUnit, Txt.electronVolt]
  rw [← Txt.energyUnit, div_self this]

theorem setSN_fresh {s : St K} (b : Bool) (h : s.sn = none) : s.setSN b = .ok { s with sn := some b } := by
  simp [St.setSN, h]

theorem setDC_fresh {s : St K} (d : Bool) (h : s.dc = none) (he : s.exch = []) : s.setDC d = .ok { s with dc := some d } := by
  cases d <;> simp [St.setDC, h, he, St.ensureDC, St.ensureNoDC, St.collectMirrors, St.collectRemovals, forEach]

theorem setEF_fresh [DecidableEq K] {s : St K} (e : K) (h : s.ef = none) : s.setEF e = .ok { s with ef := some e } := by
  simp [St.setEF, h]

theorem setOF_fresh [DecidableEq K] {s : St K} (e : K) (h : s.osf = none) : s.setOF e = .ok { s with osf := some e } := by
  simp [St.setOF, h]

variable [LinearOrder K]

theorem readEx_ok {g : Group K} {n : NotationG K} {s : St K} {d : Bool} {e : K} (h : g.exchange.isSome = true)
    (h1 : n.dc = some d) (h2 : n.ef = some e) (s1 : s.dc = none) (s3 : s.ef = none) (s5 : s.exch = []) :
    readEx g n s = .ok { s with dc := some d, ef := some e } := by
  rw [readEx, if_pos h, h1, h2]
  simp only [dataset, Except.bind, setDC_fresh d s1 s5, Res.toExcept, Res.ok]
  rw [setEF_fresh e (by exact s3)]
  rfl

theorem readOs_ok {g : Group K} {n : NotationG K} {s : St K} {o : K} (h : g.onSite.isSome = true) (h1 : n.osf = some o)
    (s4 : s.osf = none) : readOs g n s = .ok { s with osf := some o } := by
  rw [readOs, if_pos h, h1]
  simp only [dataset, Except.bind, setOF_fresh o s4, Res.toExcept, Res.ok]

/-- The notation which is read. -/
theorem readNotn_ok {x : Full K} (h : Storable x) {g : Group K} (hn : g.notn = notnG x)
    (he : g.exchange.isSome ↔ x.ham.exch ≠ []) (ho : g.onSite.isSome ↔ x.ham.onSite ≠ []) {s : St K} (s1 : s.dc = none)
    (s2 : s.sn = none) (s3 : s.ef = none) (s4 : s.osf = none) (s5 : s.exch = []) :
    ∃ t, readNotn g s = .ok t ∧ t.atoms = s.atoms ∧ t.exch = s.exch ∧ t.onSite = s.onSite ∧ t.spin = s.spin ∧
      (x.ham.exch ≠ [] ∨ x.ham.onSite ≠ [] → t.sn = x.ham.sn) ∧ (x.ham.exch ≠ [] → t.dc = x.ham.dc) ∧
      (x.ham.exch ≠ [] → t.ef = x.ham.ef) ∧ (x.ham.onSite ≠ [] → t.osf = x.ham.osf) ∧
      (x.ham.exch = [] → t.dc = none ∧ t.ef = none) ∧ (x.ham.onSite = [] → t.osf = none) ∧
      (x.ham.exch = [] → x.ham.onSite = [] → t.sn = none) := by
  by_cases h0 : x.ham.exch = [] ∧ x.ham.onSite = []
  · have e1 : g.exchange.isSome = false := by rw [Bool.eq_false_iff, ne_eq, he]; exact fun h => h h0.1
    have e2 : g.onSite.isSome = false := by rw [Bool.eq_false_iff, ne_eq, ho]; exact fun h => h h0.2
    refine ⟨s, by simp [readNotn, e1, e2], rfl, rfl, rfl, rfl, ?_, ?_, ?_, ?_, fun _ => ⟨s1, s3⟩, fun _ => s4, fun _ _ => s2⟩
    · rintro (h | h)
      · exact absurd h0.1 h
      · exact absurd h0.2 h
    · exact fun h => absurd h0.1 h
    · exact fun h => absurd h0.1 h
    · exact fun h => absurd h0.2 h
  have hor : (g.exchange.isSome || g.onSite.isSome) = true := by
    rw [Bool.or_eq_true, he, ho]; tauto
  obtain ⟨b, hb⟩ := Option.isSome_iff_exists.1 (h.sn (by tauto))
  obtain ⟨N, hN, n1, n2, n3⟩ : ∃ N : NotationG K, g.notn = some N ∧ N.sn = some b ∧
      (x.ham.exch ≠ [] → N.dc = x.ham.dc ∧ N.ef = x.ham.ef) ∧ (x.ham.onSite ≠ [] → N.osf = x.ham.osf) := by
    rw [hn, notnG, if_neg h0]
    refine ⟨_, rfl, hb, fun h => ?_, fun h => ?_⟩
    · simp [h]
    · simp [h]
  have step1 : ∀ t, (readEx g N { s with sn := some b }).bind (readOs g N) = .ok t → readNotn g s = .ok t := by
    intro t ht
    rw [readNotn, if_pos hor, hN]
    simp only [dataset, n1, Except.bind, setSN_fresh b s2, Res.toExcept, Res.ok] at ht ⊢
    exact ht
  by_cases h1 : x.ham.exch = []
  · have e1 : g.exchange.isSome = false := by rw [Bool.eq_false_iff, ne_eq, he]; exact fun h => h h1
    have h2 : x.ham.onSite ≠ [] := fun h2 => h0 ⟨h1, h2⟩
    obtain ⟨o, hos⟩ := Option.isSome_iff_exists.1 (h.osf h2)
    refine ⟨{ s with sn := some b, osf := some o }, step1 _ ?_, rfl, rfl, rfl, rfl, fun _ => hb.symm, fun h => absurd h1 h,
      fun h => absurd h1 h, fun _ => hos.symm, fun _ => ⟨s1, s3⟩, fun h => absurd h h2, fun _ h => absurd h h2⟩
    rw [readEx, if_neg (by rw [e1]; decide)]
    exact readOs_ok (ho.2 h2) ((n3 h2).trans hos) s4
  · obtain ⟨d, hd⟩ := Option.isSome_iff_exists.1 (h.dc h1)
    obtain ⟨e, hef⟩ := Option.isSome_iff_exists.1 (h.ef h1)
    rw [readEx_ok (s := { s with sn := some b }) (he.2 h1) ((n2 h1).1.trans hd) ((n2 h1).2.trans hef) s1 s3 s5] at step1
    by_cases h2 : x.ham.onSite = []
    · have e2 : g.onSite.isSome = false := by rw [Bool.eq_false_iff, ne_eq, ho]; exact fun h => h h2
      refine ⟨{ s with sn := some b, dc := some d, ef := some e }, step1 _ ?_, rfl, rfl, rfl, rfl, fun _ => hb.symm,
        fun _ => hd.symm, fun _ => hef.symm, fun h => absurd h2 h, fun h => absurd h h1, fun _ => s4, fun h => absurd h h1⟩
      simp only [Except.bind]
      rw [readOs, if_neg (by rw [e2]; decide)]
    · obtain ⟨o, hos⟩ := Option.isSome_iff_exists.1 (h.osf h2)
      refine ⟨{ s with sn := some b, dc := some d, ef := some e, osf := some o }, step1 _ ?_, rfl, rfl, rfl, rfl,
        fun _ => hb.symm, fun _ => hd.symm, fun _ => hef.symm, fun _ => hos.symm, fun h => absurd h h1, fun h => absurd h h2,
        fun h => absurd h h1⟩
      exact readOs_ok (ho.2 h2) ((n3 h2).trans hos) s4

theorem setCone_unit [IsStrictOrderedRing K] {L : Txt.Lib K} (hL : L.Unit) {n : V3 K}
    (hs : n 0 * n 0 + n 1 * n 1 + n 2 * n 2 = 1) :
    Txt.setCone L n = .ok n := by
  rw [Txt.setCone, if_neg, hL n hs]
  · simp
  · intro hall
    rw [List.all_eq_true] at hall
    have key : ∀ i, n i * n i ≤ 1 / 10 ^ 8 * (1 / 10 ^ 8) := by
      intro i
      have h1 : |n i| ≤ 1 / 10 ^ 8 := by simpa using hall i (List.mem_finRange i)
      rw [← abs_mul_abs_self]
      exact mul_le_mul h1 h1 (abs_nonneg _) (by positivity)
    have h0 := key 0
    have h1 := key 1
    have h2 := key 2
    norm_num at hs h0 h1 h2
    linarith

end

section
variable {K : Type} [Field K] [LinearOrder K] [IsStrictOrderedRing K]

/-- Reading the group of a Hamiltonian that can be stored. -/
theorem loadGroup_same {L : Txt.Lib K} (hL : L.Unit) {x : Full K} (h : Storable x) :
    ∃ y, loadGroup L (dumpGroup x).st = .ok y ∧ Same x y ∧
      y.ham.atoms.map Atom.name = visit (labelled (x.ham.atoms.map Atom.name)) ∧
      (∀ a ∈ x.ham.atoms, ∀ a' ∈ y.ham.atoms, a'.name = a.name → y.ham.spin a' = (x.spinVec a).map L.norm) ∧
      (x.ham.exch = [] → y.ham.dc = none ∧ y.ham.ef = none) ∧ (x.ham.onSite = [] → y.ham.osf = none) ∧
      (x.ham.exch = [] → x.ham.onSite = [] → y.ham.sn = none) := by
  have : CharZero K := inferInstance
  rw [dumpGroup_ok h]
  simp only [Res.st_ok]
  set g := writeRest x { start x with atoms := labelled (x.ham.atoms.map (atomG x)), notn := notnG x } with hg
  -- the crystal
  set l := visit (labelled x.ham.atoms) with hl
  have hlp : l.Perm x.ham.atoms := visit_labelled_perm _
  set rs := l.map (recG x) with hrs
  have hrs' : readAtomGs (visit g.atoms) = .ok rs := by
    have : visit g.atoms = l.map (atomG x) := visit_labelled_map _ _
    rw [this]
    exact readAtomGs_ok (fun a ha => h.named a (hlp.mem_iff.1 ha)) (fun a ha => h.spins a (hlp.mem_iff.1 ha))
  set c := crystal L x.cell rs with hc
  have hcn : c.ham.atoms.map Atom.name = l.map Atom.name := by
    rw [hc, crystal_names, hrs, List.map_map]; rfl
  have hnp : (c.ham.atoms.map Atom.name).Perm (x.ham.atoms.map Atom.name) := by
    rw [hcn]; exact hlp.map _
  have hnd : (c.ham.atoms.map Atom.name).Nodup := hnp.nodup_iff.2 h.unique
  -- atoms by name
  have hex : ∀ n, ∃ a', n ∈ x.ham.atoms.map Atom.name → a' ∈ c.ham.atoms ∧ a'.name = n := by
    intro n
    by_cases hn : n ∈ x.ham.atoms.map Atom.name
    · obtain ⟨a', h1, h2⟩ := List.mem_map.1 (hnp.mem_iff.2 hn)
      exact ⟨a', fun _ => ⟨h1, h2⟩⟩
    · exact ⟨⟨"", 0⟩, fun h => absurd h hn⟩
  choose ψ hψ using hex
  have hψ' : ∀ a ∈ x.ham.atoms, ψ a.name ∈ c.ham.atoms ∧ (ψ a.name).name = a.name :=
    fun a ha => hψ _ (List.mem_map_of_mem ha)
  have huniq : ∀ a' ∈ c.ham.atoms, ∀ b' ∈ c.ham.atoms, a'.name = b'.name → a' = b' :=
    fun a' ha b' hb e => List.inj_on_of_nodup_map hnd ha hb e
  have huniqx : ∀ a ∈ x.ham.atoms, ∀ b ∈ x.ham.atoms, a.name = b.name → a = b :=
    fun a' ha b' hb e => List.inj_on_of_nodup_map h.unique ha hb e
  have hψi : ∀ a ∈ x.ham.atoms, ∀ b ∈ x.ham.atoms, ψ a.name = ψ b.name → a = b := by
    intro a ha b hb e
    apply huniqx a ha b hb
    rw [← (hψ' a ha).2, ← (hψ' b hb).2, e]
  have hrec : ∀ a ∈ x.ham.atoms, ∀ a' ∈ c.ham.atoms, a'.name = a.name → recOf rs a' = some (recG x a) := by
    intro a ha a' ha' e
    obtain ⟨r, hr, hr1, hr2⟩ := crystal_rec ha'
    rw [hrs, List.mem_map] at hr
    obtain ⟨b, hb, rfl⟩ := hr
    have : b = a := huniqx b (hlp.mem_iff.1 hb) a ha (hr1.trans e)
    rw [hr2, this]
  have hget : ∀ s : St K, s.atoms = c.ham.atoms → ∀ a ∈ x.ham.atoms, atomOf s a.name = .ok (ψ a.name) := by
    intro s hs a ha
    have h1 := hψ' a ha
    have h2 := atomOf_self (s := s) (by rw [hs]; exact hnd) (hs ▸ h1.1) (by rw [h1.2]; exact h.plain a ha)
    rwa [h1.2] at h2
  -- notation
  have hgx : g.exchange = if x.ham.exch = [] then none else some (energyName, labelled (bondGroups x)) := rfl
  have hgo : g.onSite = if x.ham.onSite = [] then none else some (energyName, labelled (siteGroups x)) := rfl
  obtain ⟨s1, r1, t1, t2, t3, t4, t5, t6, t7, t8, t9, t10, t11⟩ := readNotn_ok h (g := g) rfl
    (by rw [hgx]; split <;> simp [*]) (by rw [hgo]; split <;> simp [*]) (s := c.ham) rfl rfl rfl rfl rfl
  have hs1a : s1.Alloc := by
    constructor
    · intro b r hb; rw [t2] at hb; simp [hc, crystal, St.empty, get?] at hb
    · intro b r hb; rw [t3] at hb; simp [hc, crystal, St.empty, get?] at hb
  have hs1e : ∀ b, s1.valE b = none := by
    intro b; simp [St.valE, t2, hc, crystal, St.empty, get?]
  have hs1o : ∀ b, s1.valO b = none := by
    intro b; simp [St.valO, t3, hc, crystal, St.empty, get?]
  -- exchange
  have hex2 : ∃ s2, readExchangeG g s1 = .ok s2 ∧ Frame s1 s2 ∧ s2.Alloc ∧ s2.onSite = s1.onSite ∧
      (∀ p ∈ x.ham.exch, s2.valE (ψ p.1.1.name, ψ p.1.2.1.name, p.1.2.2) = some (x.ham.cell p.2)) ∧
      (∀ c, s2.valE c ≠ none → (∃ p ∈ x.ham.exch, c = (ψ p.1.1.name, ψ p.1.2.1.name, p.1.2.2)) ∨
        (s1.dc = some true ∧ ∃ p ∈ x.ham.exch, c = Bond.mirror (ψ p.1.1.name, ψ p.1.2.1.name, p.1.2.2))) ∧
      (∀ c, s2.valO c = none) := by
    by_cases he : x.ham.exch = []
    · refine ⟨s1, ?_, Frame.rfl', hs1a, rfl, by simp [he], fun c hc' => absurd (hs1e c) hc', hs1o⟩
      rw [readExchangeG, hgx, if_pos he]
    · have hperm := visit_labelled_perm (bondGroups x)
      set key : BondG K → Bond := fun b => (ψ b.name1, ψ b.name2, b.ijk) with hkey
      have hmem : ∀ b, b ∈ visit (labelled (bondGroups x)) ↔ ∃ p ∈ x.ham.exch,
          (⟨p.1.1.name, p.1.2.1.name, p.1.2.2, x.ham.cell p.2⟩ : BondG K) = b := by
        intro b
        rw [hperm.mem_iff, bondGroups, List.mem_map]
      have hkeyn : ((visit (labelled (bondGroups x))).map key).Nodup := by
        rw [(hperm.map key).nodup_iff, bondGroups, List.map_map]
        have : (key ∘ fun p : Bond × ℕ => (⟨p.1.1.name, p.1.2.1.name, p.1.2.2, x.ham.cell p.2⟩ : BondG K)) =
            (fun b : Bond => (ψ b.1.name, ψ b.2.1.name, b.2.2)) ∘ Prod.fst := rfl
        rw [this, ← List.map_map]
        refine List.Nodup.map_on ?_ h.inv.nodup.exch
        intro b hb b' hb' e
        obtain ⟨m1, m2⟩ := h.inv.refer.exch b hb
        obtain ⟨m3, m4⟩ := h.inv.refer.exch b' hb'
        simp only [Prod.mk.injEq] at e
        exact Prod.ext (hψi _ m1 _ m3 e.1) (Prod.ext (hψi _ m2 _ m4 e.2.1) e.2.2)
      obtain ⟨s2, e2, f2, a2, o2, v2, w2, x2, _⟩ := foldBonds (key := key) hs1a (fun b hb => by
        obtain ⟨p, hp, rfl⟩ := (hmem b).1 hb
        obtain ⟨m1, m2⟩ := h.inv.refer.exch p.1 (List.mem_map_of_mem hp)
        exact ⟨hget s1 t1 _ m1, hget s1 t1 _ m2, rfl, t1 ▸ (hψ' _ m1).1, t1 ▸ (hψ' _ m2).1⟩) hkeyn
      refine ⟨s2, ?_, f2, a2, o2, ?_, ?_, fun a => (v2 a).trans (hs1o a)⟩
      · rw [readExchangeG, hgx, if_neg he]
        simp only [energyFactor_own, Except.bind]
        exact e2
      · intro p hp
        exact w2 _ ((hmem _).2 ⟨p, hp, rfl⟩)
      · intro c hc'
        rcases x2 c hc' with h' | h' | ⟨hd, k, hk, rfl⟩
        · exact absurd (hs1e c) h'
        · obtain ⟨b, hb, rfl⟩ := List.mem_map.1 h'
          obtain ⟨p, hp, rfl⟩ := (hmem b).1 hb
          exact Or.inl ⟨p, hp, rfl⟩
        · obtain ⟨b, hb, rfl⟩ := List.mem_map.1 hk
          obtain ⟨p, hp, rfl⟩ := (hmem b).1 hb
          exact Or.inr ⟨hd, p, hp, rfl⟩
  obtain ⟨s2, r2, f2, a2, o2, w2, x2, v2⟩ := hex2
  -- on-site
  have hex3 : ∃ s3, readOnSiteG g s2 = .ok s3 ∧ Frame s2 s3 ∧ s3.exch = s2.exch ∧ (∀ a, s3.valE a = s2.valE a) ∧
      (∀ p ∈ x.ham.onSite, s3.valO (ψ p.1.name) = some (x.ham.cell p.2)) ∧
      (∀ c, s3.valO c ≠ none → ∃ p ∈ x.ham.onSite, c = ψ p.1.name) := by
    by_cases ho : x.ham.onSite = []
    · refine ⟨s2, ?_, Frame.rfl', rfl, fun _ => rfl, by simp [ho], fun c hc' => absurd (v2 c) hc'⟩
      rw [readOnSiteG, hgo, if_pos ho]
    · have hperm := visit_labelled_perm (siteGroups x)
      set key : SiteG K → Atom := fun b => ψ b.name with hkey
      have hmem : ∀ b, b ∈ visit (labelled (siteGroups x)) ↔ ∃ p ∈ x.ham.onSite,
          (⟨p.1.name, x.ham.cell p.2⟩ : SiteG K) = b := by
        intro b
        rw [hperm.mem_iff, siteGroups, List.mem_map]
      have hkeyn : ((visit (labelled (siteGroups x))).map key).Nodup := by
        rw [(hperm.map key).nodup_iff, siteGroups, List.map_map]
        have : (key ∘ fun p : Atom × ℕ => (⟨p.1.name, x.ham.cell p.2⟩ : SiteG K)) =
            (fun b : Atom => ψ b.name) ∘ Prod.fst := rfl
        rw [this, ← List.map_map]
        refine List.Nodup.map_on ?_ h.inv.nodup.site
        intro b hb b' hb' e
        exact hψi _ (h.inv.refer.site b hb) _ (h.inv.refer.site b' hb') e
      obtain ⟨s3, e3, f3, a3, o3, v3, w3, x3⟩ := foldSites (key := key) a2 (fun b hb => by
        obtain ⟨p, hp, rfl⟩ := (hmem b).1 hb
        have m1 := h.inv.refer.site p.1 (List.mem_map_of_mem hp)
        exact ⟨hget s2 (f2.atoms.trans t1) _ m1, (f2.atoms.trans t1) ▸ (hψ' _ m1).1⟩) hkeyn
      refine ⟨s3, ?_, f3, o3, v3, ?_, ?_⟩
      · rw [readOnSiteG, hgo, if_neg ho]
        simp only [energyFactor_own, Except.bind]
        exact e3
      · intro p hp
        exact w3 _ ((hmem _).2 ⟨p, hp, rfl⟩)
      · intro c hc'
        by_cases hcm : c ∈ (visit (labelled (siteGroups x))).map key
        · obtain ⟨b, hb, rfl⟩ := List.mem_map.1 hcm
          obtain ⟨p, hp, rfl⟩ := (hmem b).1 hb
          exact ⟨p, hp, rfl⟩
        · rw [x3 c hcm] at hc'
          exact absurd (v2 c) hc'
  obtain ⟨s3, r3, f3, o3, v3, w3, x3⟩ := hex3
  -- ground state
  have hsp : readSpiralG L x.cell g = .ok x.spiral := by
    have h1 : (Str.lit "Relative").lower ≠ Str.lit "absolute" := by decide +kernel
    have h2 : (Str.lit "Relative").lower = Str.lit "relative" := by decide +kernel
    have : g.spiral = x.spiral.map fun v => (v, Str.lit "Relative") := rfl
    rw [readSpiralG, this]
    cases x.spiral with
    | none => rfl
    | some v => simp only [Option.map_some, if_neg h1, if_pos h2]
  have hco : readConeG L x.cell g = .ok x.cone := by
    have h1 : (Str.lit "Absolute").lower ≠ Str.lit "relative" := by decide +kernel
    have h2 : (Str.lit "Absolute").lower = Str.lit "absolute" := by decide +kernel
    have : g.cone = x.cone.map fun v => (v, Str.lit "Absolute") := rfl
    rw [readConeG, this]
    cases hx : x.cone with
    | none => rfl
    | some v =>
      simp only [Option.map_some, if_neg h1, if_pos h2]
      rw [setCone_unit hL (h.cone v hx)]
      rfl
  have hat : s3.atoms = c.ham.atoms := f3.atoms.trans (f2.atoms.trans t1)
  have hcell : g.cell = x.cell := rfl
  refine ⟨{ c with ham := s3, spiral := x.spiral, cone := x.cone }, ?_, ?_, ?_, ?_, ?_, ?_, ?_⟩
  · have hu : g.cellUnits = Str.lit "Angstrom" := rfl
    rw [loadGroup, hu, cellFactor_own]
    simp only [Except.bind, one_smul, hcell, hrs']
    simp only [← hc, r1, r2, r3, hsp, hco]
    rfl
  · refine ⟨rfl, ?_, ?_, ?_, ?_, ?_, ⟨?_, ?_⟩, ?_, ?_, ?_, ?_, ?_, ?_, rfl, rfl⟩
    · simp only [hat]; exact hnp
    · intro a ha a' ha' e
      simp only [hat] at ha'
      simp only [hc, crystal, hrec a ha a' ha' e]
      rfl
    · intro a ha a' ha' e
      simp only [hat] at ha'
      obtain ⟨v, hv⟩ := Option.isSome_iff_exists.1 (h.spins a ha)
      simp only [hc, crystal, hrec a ha a' ha' e]
      simp [recG, hv]
    · intro a ha a' ha' e
      simp only [hat] at ha'
      simp only [hc, crystal, hrec a ha a' ha' e]
      rfl
    · intro a ha a' ha' e
      simp only [hat] at ha'
      simp only [hc, crystal, hrec a ha a' ha' e]
      rfl
    · intro b hb
      simp only [hat]
      rcases x2 b (by rw [← v3 b]; exact valE_mem.2 hb) with ⟨p, hp, rfl⟩ | ⟨_, p, hp, rfl⟩
      · obtain ⟨m1, m2⟩ := h.inv.refer.exch p.1 (List.mem_map_of_mem hp)
        exact ⟨(hψ' _ m1).1, (hψ' _ m2).1⟩
      · obtain ⟨m1, m2⟩ := h.inv.refer.exch p.1 (List.mem_map_of_mem hp)
        exact ⟨(hψ' _ m2).1, (hψ' _ m1).1⟩
    · intro a ha
      simp only [hat]
      obtain ⟨p, hp, rfl⟩ := x3 a (valO_mem.2 ha)
      exact (hψ' _ (h.inv.refer.site p.1 (List.mem_map_of_mem hp))).1
    · intro a ha b hb a' ha' b' hb' ea eb R
      simp only [hat] at ha' hb'
      have ea' : a' = ψ a.name := huniq _ ha' _ (hψ' a ha).1 (ea.trans (hψ' a ha).2.symm)
      have eb' : b' = ψ b.name := huniq _ hb' _ (hψ' b hb).1 (eb.trans (hψ' b hb).2.symm)
      rw [v3]
      cases hx : x.ham.exch.get? (a, b, R) with
      | some r =>
        rw [ea', eb', w2 _ (mem_of_get? hx), St.valE, hx]; rfl
      | none =>
        have hx' : x.ham.valE (a, b, R) = none := by rw [St.valE, hx]; rfl
        rw [hx']
        by_contra hne
        rw [get?_eq_none_iff] at hx
        rcases x2 _ hne with ⟨p, hp, e⟩ | ⟨hd, p, hp, e⟩
        · have hpk : p.1 ∈ x.ham.exch.keys := List.mem_map_of_mem hp
          obtain ⟨m1, m2⟩ := h.inv.refer.exch p.1 hpk
          simp only [Prod.mk.injEq] at e
          have : p.1 = (a, b, R) := by
            refine Prod.ext (hψi _ m1 _ ha ?_) (Prod.ext (hψi _ m2 _ hb ?_) ?_)
            · rw [← e.1, ea']
            · rw [← e.2.1, eb']
            · exact e.2.2.symm
          exact hx (this ▸ hpk)
        · have hpk : p.1 ∈ x.ham.exch.keys := List.mem_map_of_mem hp
          obtain ⟨m1, m2⟩ := h.inv.refer.exch p.1 hpk
          simp only [Bond.mirror, Prod.mk.injEq] at e
          have : p.1.mirror = (a, b, R) := by
            refine Prod.ext (hψi _ m2 _ ha ?_) (Prod.ext (hψi _ m1 _ hb ?_) ?_)
            · show ψ p.1.2.1.name = _
              rw [← e.1, ea']
            · show ψ p.1.1.name = _
              rw [← e.2.1, eb']
            · exact e.2.2.symm
          have hd' : x.ham.dc = some true := by
            rw [← t6 (fun h0 => by simp [h0] at hp)]; exact hd
          exact hx (this ▸ h.inv.closed hd' _ hpk)
    · intro a ha a' ha' ea
      simp only [hat] at ha'
      have ea' : a' = ψ a.name := huniq _ ha' _ (hψ' a ha).1 (ea.trans (hψ' a ha).2.symm)
      cases hx : x.ham.onSite.get? a with
      | some r =>
        rw [ea', w3 _ (mem_of_get? hx), St.valO, hx]; rfl
      | none =>
        have hx' : x.ham.valO a = none := by rw [St.valO, hx]; rfl
        rw [hx']
        by_contra hne
        rw [get?_eq_none_iff] at hx
        obtain ⟨p, hp, e⟩ := x3 _ hne
        have hpk : p.1 ∈ x.ham.onSite.keys := List.mem_map_of_mem hp
        have : p.1 = a := hψi _ (h.inv.refer.site _ hpk) _ ha (by rw [← e, ea'])
        exact hx (this ▸ hpk)
    · intro h0
      simp only [f3.sn, f2.sn]; exact t5 h0
    · intro h0
      simp only [f3.dc, f2.dc]; exact t6 h0
    · intro h0
      simp only [f3.ef, f2.ef]; exact t7 h0
    · intro h0
      simp only [f3.osf, f2.osf]; exact t8 h0
  · simp only [hat, hcn, hl]
    rw [visit_labelled_map]
  · intro a ha a' ha' e
    simp only [hat] at ha'
    obtain ⟨v, hv⟩ := Option.isSome_iff_exists.1 (h.spins a ha)
    simp only [f3.spin, f2.spin, t4, hc, crystal, St.empty, hrec a ha a' ha' e]
    simp [recG, hv]
  · intro h0
    simp only [f3.dc, f2.dc, f3.ef, f2.ef]; exact t9 h0
  · intro h0
    simp only [f3.osf, f2.osf]; exact t10 h0
  · intro h0 h1
    simp only [f3.sn, f2.sn]; exact t11 h0 h1

/-- **C51** (full statement): writing to a new group and reading it gives the same Hamiltonian with the atoms in the same
order and the same notation. -/
def C51_statement (K : Type) [Field K] [LinearOrder K] : Prop :=
  ∀ L : Txt.Lib K, L.Unit → ∀ (x : Full K) (f : File K) (name : Str), Storable x → f.get? name = none →
    ∃ y, (dump x name false f).err = none ∧ load L (some name) (dump x name false f).st = .ok y ∧ Same x y ∧
      y.ham.atoms.map Atom.name = x.ham.atoms.map Atom.name ∧ y.ham.sn = x.ham.sn ∧ y.ham.dc = x.ham.dc ∧
      y.ham.ef = x.ham.ef ∧ y.ham.osf = x.ham.osf

theorem get?_dump {x : Full K} {name : Str} {ow : Bool} {f : File K} (h : f.get? name = none ∨ ow = true) :
    (dump x name ow f).st.get? name = some (.ham (dumpGroup x).st) ∧ (dump x name ow f).err = (dumpGroup x).err := by
  unfold dump
  cases hf : f.get? name with
  | none => exact ⟨by simp, rfl⟩
  | some o =>
    rw [hf] at h
    rcases h with h | h
    · cases h
    · subst h; exact ⟨by simp, rfl⟩

/-- **C51** (partial).  For every Hamiltonian that can be stored, every file and every group that is new or may be
overwritten, writing does not raise and reading the group gives the same Hamiltonian up to the order of the atoms.  The
order of the atoms is the same exactly for up to nine atoms.  The notation is restored exactly as far as it belongs to
existing parameters.  (Missing: the order of ten or more atoms and the rest of the notation, which the file does not
keep: `C51_statement_false`.) -/
theorem C51_roundtrip_partial {L : Txt.Lib K} (hL : L.Unit) {x : Full K} (h : Storable x) {f : File K} {name : Str}
    {ow : Bool} (hf : f.get? name = none ∨ ow = true) :
    ∃ y, (dump x name ow f).err = none ∧ load L (some name) (dump x name ow f).st = .ok y ∧ Same x y ∧
      (y.ham.atoms.map Atom.name = x.ham.atoms.map Atom.name ↔ x.ham.atoms.length ≤ 9) ∧
      (∀ a ∈ x.ham.atoms, ∀ a' ∈ y.ham.atoms, a'.name = a.name → y.ham.spin a' = (x.spinVec a).map L.norm) ∧
      (x.ham.exch = [] → y.ham.dc = none ∧ y.ham.ef = none) ∧ (x.ham.onSite = [] → y.ham.osf = none) ∧
      (x.ham.exch = [] → x.ham.onSite = [] → y.ham.sn = none) := by
  obtain ⟨y, h1, h2, h3, h4⟩ := loadGroup_same hL h
  obtain ⟨g1, g2⟩ := get?_dump (x := x) hf
  refine ⟨y, ?_, ?_, h2, ?_, h4⟩
  · rw [g2, dumpGroup_ok h]; rfl
  · rw [load, chooseName]
    simp only [Except.bind, g1]
    exact h1
  · rw [h3, visit_eq_iff h.unique, List.length_map]

/-- **C51**, limit: an atom without spin cannot be written. -/
theorem C51_needs_spin {x : Full K} (h : ∃ a ∈ x.ham.atoms, x.spinVec a = none) {f : File K} {name : Str} {ow : Bool}
    (hf : f.get? name = none ∨ ow = true) : (dump x name ow f).err = some .valueError := by
  rw [(get?_dump hf).2, dumpGroup_spin h]

/-! ### C64: what happens to the file -/

theorem get?_del_of_ne {α β : Type} [DecidableEq α] {d : PyDict α β} {k m : α} (h : m ≠ k) : (d.del k).get? m = d.get? m := by
  induction d with
  | nil => rfl
  | cons p d ih =>
    obtain ⟨k', v⟩ := p
    by_cases hk : k' = k
    · rw [del, if_pos hk, get?, if_neg (fun e : k' = m => h (e.symm.trans hk))]
    · rw [del, if_neg hk, get?, get?, ih]

/-- **C64**: other objects of the file stay as they were, whether or not writing raises. -/
theorem C64_others (x : Full K) (name : Str) (ow : Bool) (f : File K) {m : Str} (h : m ≠ name) :
    (dump x name ow f).st.get? m = f.get? m := by
  unfold dump
  cases hf : f.get? name with
  | none => simp only; rw [get?_set, if_neg (fun e => h e.symm)]
  | some o =>
    cases ow with
    | false => rfl
    | true =>
      simp only [if_true]
      rw [get?_set, if_neg (fun e => h e.symm), get?_del_of_ne h]

/-- **C64**: without permission an existing object is not touched, `FileExistsError` is raised. -/
theorem C64_refuses (x : Full K) {name : Str} {f : File K} (h : f.get? name ≠ none) :
    dump x name false f = .raise f .fileExists := by
  unfold dump
  cases hf : f.get? name with
  | none => exact absurd hf h
  | some o => rfl

/-- **C64** (full statement): if writing raises, the file is as before. -/
def C64_statement (K : Type) : Prop :=
  ∀ (x : Full K) (name : Str) (ow : Bool) (f : File K), (dump x name ow f).err ≠ none →
    ∀ m, (dump x name ow f).st.get? m = f.get? m

theorem readAtomGs_bad {l : List (AtomG K)} (h : ∃ a ∈ l, a.spin = none) : ∃ e, readAtomGs l = .error e := by
  induction l with
  | nil => obtain ⟨a, ha, _⟩ := h; simp at ha
  | cons b l ih =>
    rw [readAtomGs]
    cases hb : readAtomG b with
    | error e => exact ⟨e, rfl⟩
    | ok r =>
      obtain ⟨a, ha, hs⟩ := h
      rcases List.mem_cons.1 ha with rfl | ha
      · rw [readAtomG, hs] at hb
        split at hb <;> cases hb
      · obtain ⟨e, he⟩ := ih ⟨a, ha, hs⟩
        exact ⟨e, by simp [Except.bind, he, Except.map]⟩

theorem dumpGroup_bad {x : Full K} (h : ∃ a ∈ x.ham.atoms, x.spinVec a = none) :
    (∃ p ∈ (dumpGroup x).st.atoms, p.2.spin = none) ∧ (dumpGroup x).st.type.lower = Str.lit "spinhamiltonian" := by
  have key : ∀ (l : List Atom) (k : ℕ) (g : Group K), (∃ a ∈ l, x.spinVec a = none) →
      (∃ p ∈ (forEach (l.zipIdx k) (writeAtom x) g).st.atoms, p.2.spin = none) ∧
      (forEach (l.zipIdx k) (writeAtom x) g).st.type = g.type ∧
      (forEach (l.zipIdx k) (writeAtom x) g).err = some .valueError := by
    intro l
    induction l with
    | nil => rintro k g ⟨a, ha, _⟩; simp at ha
    | cons b l ih =>
      rintro k g ⟨a, ha, hv⟩
      rw [List.zipIdx_cons, forEach, writeAtom]
      cases hb : x.spinVec b with
      | none =>
        exact ⟨⟨(label k, { name := b.name, pos := x.pos b }), by simp, rfl⟩, rfl, rfl⟩
      | some v =>
        simp only [Res.ok_andThen]
        refine ih _ _ ⟨a, ?_, hv⟩
        rcases List.mem_cons.1 ha with rfl | ha
        · rw [hb] at hv; cases hv
        · exact ha
  obtain ⟨k1, k2, k3⟩ := key _ 0 (start x) h
  have : (dumpGroup x).st = (forEach x.ham.atoms.zipIdx (writeAtom x) (start x)).st := by
    unfold dumpGroup
    rcases hr : forEach x.ham.atoms.zipIdx (writeAtom x) (start x) with ⟨s, e⟩
    rw [hr] at k3
    simp only at k3
    subst k3
    rfl
  rw [this]
  refine ⟨k1, ?_⟩
  rw [k2]
  show (Str.lit "SpinHamiltonian").lower = _
  decide +kernel

/-- **C64**, limit: a Hamiltonian with an atom without spin is refused with `ValueError`, but an incomplete group of type
"SpinHamiltonian" is left in the file (in place of the old one, if overwriting was asked for), and it cannot be loaded. -/
theorem C64_incomplete {x : Full K} (h : ∃ a ∈ x.ham.atoms, x.spinVec a = none) {f : File K} {name : Str} {ow : Bool}
    (hf : f.get? name = none ∨ ow = true) :
    (dump x name ow f).err = some .valueError ∧
      (∃ o, (dump x name ow f).st.get? name = some o ∧ o.Holds) ∧
      ∀ L : Txt.Lib K, ∃ e, load L (some name) (dump x name ow f).st = .error e := by
  obtain ⟨g1, g2⟩ := get?_dump (x := x) hf
  obtain ⟨⟨p, hp, hp'⟩, hb⟩ := dumpGroup_bad h
  refine ⟨C51_needs_spin h hf, ⟨_, g1, _, rfl, hb⟩, fun L => ?_⟩
  rw [load, chooseName]
  simp only [Except.bind, g1]
  rw [loadGroup]
  cases hc : cellFactor (K := K) (dumpGroup x).st.cellUnits with
  | error e => exact ⟨e, rfl⟩
  | ok c =>
    obtain ⟨e, he⟩ := readAtomGs_bad (l := visit (dumpGroup x).st.atoms)
      ⟨p.2, (visit_perm _).mem_iff.2 (List.mem_map_of_mem hp), hp'⟩
    exact ⟨e, by simp only [Except.bind, he]⟩

/-! ### C65: finding the group -/

theorem isHam_iff {o : Obj K} : isHam o = true ↔ o.Holds := by
  cases o with
  | ham g => simp [isHam, Obj.Holds]
  | other => simp [isHam, Obj.Holds]

theorem mem_filter_ham {f : File K} (hf : f.keys.Nodup) {p : Str × Obj K} :
    p ∈ f.filter (fun p => isHam p.2) ↔ f.get? p.1 = some p.2 ∧ p.2.Holds := by
  rw [List.mem_filter, isHam_iff]
  exact and_congr_left fun _ => ⟨fun h => get?_of_mem hf h, fun h => mem_of_get? h⟩

/-- **C65**: without a group name the only spin Hamiltonian of the file is loaded. -/
theorem C65_only {L : Txt.Lib K} {f : File K} (hf : f.keys.Nodup) {n : Str} {o : Obj K} (h : f.get? n = some o)
    (ho : o.Holds) (hu : ∀ m o', f.get? m = some o' → o'.Holds → m = n) : load L none f = load L (some n) f := by
  have hmem : (n, o) ∈ f.filter (fun p => isHam p.2) := (mem_filter_ham hf).2 ⟨h, ho⟩
  have hall : ∀ p ∈ f.filter (fun p => isHam p.2), p = (n, o) := by
    intro p hp
    obtain ⟨h1, h2⟩ := (mem_filter_ham hf).1 hp
    have := hu _ _ h1 h2
    rw [this, h] at h1
    cases h1
    exact Prod.ext this rfl
  have hnd : (f.filter (fun p => isHam p.2)).Nodup := (List.Nodup.of_map _ hf).filter _
  have : f.filter (fun p => isHam p.2) = [(n, o)] := by
    cases hl : f.filter (fun p => isHam p.2) with
    | nil => rw [hl] at hmem; simp at hmem
    | cons p l =>
      rw [hl] at hall hnd
      rw [hall p (by simp)]
      cases l with
      | nil => rfl
      | cons q l =>
        have h1 := hall p (by simp)
        have h2 := hall q (by simp)
        rw [List.nodup_cons] at hnd
        exact absurd (by simp [h1, h2]) hnd.1
  rw [load, load, chooseName, chooseName, this]

/-- **C65**: with no spin Hamiltonian or with several of them `RuntimeError` is raised. -/
theorem C65_ambiguous {L : Txt.Lib K} {f : File K} (hf : f.keys.Nodup)
    (h : (∀ n o, f.get? n = some o → ¬ o.Holds) ∨
      ∃ n m o o', n ≠ m ∧ f.get? n = some o ∧ f.get? m = some o' ∧ o.Holds ∧ o'.Holds) :
    load L none f = .error .runtimeError := by
  rw [load, chooseName.eq_def]
  dsimp only
  split
  · next p hp =>
    have hmem : ∀ q, (f.get? q.1 = some q.2 ∧ q.2.Holds) ↔ q = p := by
      intro q
      rw [← mem_filter_ham hf, hp, List.mem_singleton]
    rcases h with h | ⟨n, m, o, o', hnm, h1, h2, h3, h4⟩
    · have := (hmem p).2 rfl
      exact absurd this.2 (h _ _ this.1)
    · have e1 := (hmem (n, o)).1 ⟨h1, h3⟩
      have e2 := (hmem (m, o')).1 ⟨h2, h4⟩
      rw [← e2] at e1
      exact absurd (congrArg Prod.fst e1) hnm
  · rfl

/-- **C65**: a Hamiltonian written to a file without spin Hamiltonians is found without giving its name. -/
theorem C65_found {L : Txt.Lib K} {x : Full K} (h : Storable x) {f : File K} (hf : f.keys.Nodup) {name : Str}
    (hn : f.get? name = none) (h0 : ∀ n o, f.get? n = some o → ¬ o.Holds) :
    load L none (dump x name false f).st = load L (some name) (dump x name false f).st := by
  have hg := (get?_dump (x := x) (ow := false) (Or.inl hn)).1
  refine C65_only (f := (dump x name false f).st) ?_ hg ?_ ?_
  · unfold dump
    rw [hn]
    exact nodup_set hf _ _
  · refine ⟨_, rfl, ?_⟩
    rw [dumpGroup_ok h]
    show (Str.lit "SpinHamiltonian").lower = _
    decide +kernel
  · intro m o' h1 h2
    by_contra hne
    rw [C64_others x name false f hne] at h1
    exact h0 _ _ h1 h2

end

/-! ### Concrete files -/

namespace Ex

/-- A library for the examples. -/
def L : Txt.Lib ℚ where
  float _ := none
  int _ := none
  alnum _ := true
  norm v := if v 0 * v 0 + v 1 * v 1 + v 2 * v 2 = 1 then 1 else 2
  sin _ := 0
  cos _ := 1
  recip m := m

theorem unit : L.Unit := fun v h => by simp [L, h]

/-- The atoms of the examples. -/
def A (i : ℕ) : Atom := ⟨String.ofList ['A', Char.ofNat (97 + i)], (i : ℤ) + 1⟩

/-- Two atoms, one bond counted twice, one on-site parameter, cone axis and spiral vector. -/
def two : Full ℚ where
  cell := 2
  pos a := ![a.index, 0, 1 / 2]
  spinVec _ := some ![0, 3 / 5, 4 / 5]
  gFactor _ := 2
  charge a := if a.index = 1 then some 3 else none
  ham := { cell := fun r => Matrix.of ![![(r : ℚ), 1, 0], ![3, 4, 5], ![0, 0, 7]], next := 3, atoms := [A 0, A 1],
           exch := [((A 0, A 1, (1, 0, 0)), 0), ((A 1, A 0, (-1, 0, 0)), 1)], onSite := [(A 1, 2)],
           dc := some true, sn := some false, ef := some (1 / 2), osf := some 1, spin := fun _ => some 1, dist := fun _ => 1 }
  spiral := some ![1 / 3, 0, 0]
  cone := some ![0, 3 / 5, 4 / 5]

theorem two_storable : Storable two where
  inv := ⟨⟨by decide +kernel, by decide +kernel⟩, ⟨by decide +kernel, by decide +kernel⟩, fun _ => by decide +kernel⟩
  unique := by decide +kernel
  named := by decide +kernel
  plain := by decide +kernel
  spins := fun _ _ => rfl
  sn := fun _ => rfl
  dc := fun _ => rfl
  ef := fun _ => rfl
  osf := fun _ => rfl
  cone := by
    intro n hn
    simp only [two, Option.some.injEq] at hn
    subst hn
    decide +kernel

/-- The parameters of the example survive writing and reading. -/
example : ∃ y, load L none (dump two (Str.lit "spinham") false []).st = .ok y ∧ y.ham.atoms.map Atom.name = ["Aa", "Ab"] ∧
    (∀ a ∈ y.ham.atoms, ∀ b ∈ y.ham.atoms, a.name = "Aa" → b.name = "Ab" →
      y.ham.valE (a, b, (1, 0, 0)) = some (Matrix.of ![![0, 1, 0], ![3, 4, 5], ![0, 0, 7]]) ∧
      y.ham.valE (a, b, (0, 0, 0)) = none ∧ y.charge a = some 3 ∧ y.charge b = none) ∧
    y.spiral = some ![1 / 3, 0, 0] := by
  obtain ⟨y, _, h2, h3, h4, _⟩ := C51_roundtrip_partial unit two_storable (f := []) (name := Str.lit "spinham") (ow := false)
    (Or.inl rfl)
  have hx := C65_found (L := L) two_storable (f := []) List.nodup_nil (name := Str.lit "spinham") rfl
    (fun n o h => by simp [get?] at h)
  refine ⟨y, hx.trans h2, (h4.2 (by decide)).trans (by decide +kernel), ?_, h3.spiral⟩
  intro a ha b hb ea eb
  have h0 : A 0 ∈ two.ham.atoms := by decide +kernel
  have h1 : A 1 ∈ two.ham.atoms := by decide +kernel
  have ea' : a.name = (A 0).name := ea.trans (by decide +kernel)
  have eb' : b.name = (A 1).name := eb.trans (by decide +kernel)
  refine ⟨?_, ?_, ?_, ?_⟩
  · rw [h3.exchange _ h0 _ h1 a ha b hb ea' eb']; decide +kernel
  · rw [h3.exchange _ h0 _ h1 a ha b hb ea' eb']; decide +kernel
  · rw [h3.charge _ h0 a ha ea']; decide +kernel
  · rw [h3.charge _ h1 b hb eb']; decide +kernel

/-- Ten atoms without parameters, with a complete notation. -/
def ten : Full ℚ :=
  { two with
    ham := { cell := fun _ => 0, next := 0, atoms := (List.range 10).map A, exch := [], onSite := [], dc := some true,
             sn := some false, ef := some (1 / 2), osf := some 1, spin := fun _ => some 1, dist := fun _ => 1 } }

theorem ten_storable : Storable ten where
  inv := ⟨⟨by decide +kernel, by decide +kernel⟩, ⟨by decide +kernel, by decide +kernel⟩, fun _ => by decide +kernel⟩
  unique := by decide +kernel
  named := by decide +kernel
  plain := by decide +kernel
  spins := fun _ _ => rfl
  sn := fun _ => rfl
  dc := fun _ => rfl
  ef := fun _ => rfl
  osf := fun _ => rfl
  cone := two_storable.cone

/-- The order in which ten atoms come back. -/
example : visit (labelled [1, 2, 3, 4, 5, 6, 7, 8, 9, 10, 11]) = [1, 10, 11, 2, 3, 4, 5, 6, 7, 8, 9] := by decide +kernel

/-- An atom without spin. -/
def bare : Full ℚ := { two with spinVec := fun _ => none }

end Ex

/-- **C51**: the full statement is false of the code: ten atoms change their order. -/
theorem C51_statement_false : ¬ C51_statement ℚ := by
  intro h
  obtain ⟨y, _, h2, _, h4, _⟩ := h Ex.L Ex.unit Ex.ten [] (Str.lit "spinham") Ex.ten_storable rfl
  obtain ⟨y', _, g2, _, g4, _⟩ := C51_roundtrip_partial Ex.unit Ex.ten_storable (f := []) (name := Str.lit "spinham")
    (ow := false) (Or.inl rfl)
  rw [h2] at g2
  cases g2
  exact absurd (g4.1 h4) (by decide +kernel)

/-- **C51**: also without regard to the order of the atoms the notation is lost if there are no parameters. -/
theorem C51_notation_false : ∃ x : Full ℚ, Storable x ∧ x.ham.atoms.length ≤ 9 ∧ x.ham.dc = some true ∧
    ∃ y, load Ex.L (some (Str.lit "spinham")) (dump x (Str.lit "spinham") false []).st = .ok y ∧ y.ham.dc = none ∧
      y.ham.sn = none ∧ y.ham.ef = none ∧ y.ham.osf = none := by
  let x : Full ℚ := { Ex.ten with ham := { Ex.ten.ham with atoms := [Ex.A 0] } }
  have hx : Storable x :=
    { inv := ⟨⟨by decide +kernel, by decide +kernel⟩, ⟨by decide +kernel, by decide +kernel⟩, fun _ => by decide +kernel⟩
      unique := by decide +kernel
      named := by decide +kernel
      plain := by decide +kernel
      spins := fun _ _ => rfl
      sn := fun _ => rfl
      dc := fun _ => rfl
      ef := fun _ => rfl
      osf := fun _ => rfl
      cone := Ex.two_storable.cone }
  obtain ⟨y, _, g2, _, _, _, g5, g6, g7⟩ := C51_roundtrip_partial Ex.unit hx (f := []) (name := Str.lit "spinham")
    (ow := false) (Or.inl rfl)
  exact ⟨x, hx, by decide, rfl, y, g2, (g5 rfl).1, g7 rfl rfl, (g5 rfl).2, g6 rfl⟩

/-- **C64**: the full statement is false of the code: overwriting with a Hamiltonian that cannot be written loses the old
group. -/
theorem C64_statement_false : ¬ C64_statement ℚ := by
  intro h
  have hb : ∃ a ∈ Ex.bare.ham.atoms, Ex.bare.spinVec a = none := ⟨Ex.A 0, by decide +kernel, rfl⟩
  obtain ⟨h1, _, h3⟩ := C64_incomplete hb (f := (dump Ex.two (Str.lit "x") false []).st) (name := Str.lit "x") (ow := true)
    (Or.inr rfl)
  have h4 := h Ex.bare (Str.lit "x") true (dump Ex.two (Str.lit "x") false []).st (by rw [h1]; simp) (Str.lit "x")
  obtain ⟨e, he⟩ := h3 Ex.L
  obtain ⟨y, _, g2, _⟩ := C51_roundtrip_partial Ex.unit Ex.two_storable (f := []) (name := Str.lit "x") (ow := false)
    (Or.inl rfl)
  rw [load, chooseName] at he g2
  simp only [Except.bind] at he g2
  rw [h4, g2] at he
  cases he

end H5

/-! ### C52: the choice of the reader -/

/-- The name of a format. -/
def Reader.name : Reader → Str
  | .txt => Str.lit "txt"
  | .hdf5 => Str.lit "hdf5"
  | .tb2j => Str.lit "tb2j"

/-- **C52**: an explicit format in any letter case selects its reader, whatever the file name; anything else raises
`ValueError`. -/
theorem C52_explicit (filename fmt : Str) :
    (∀ r, chooseReader filename (some fmt) = .ok r ↔ fmt.lower = r.name) ∧
      (chooseReader filename (some fmt) = .error .valueError ↔ ∀ r : Reader, fmt.lower ≠ r.name) := by
  have d1 : Str.lit "txt" ≠ Str.lit "hdf5" := by decide +kernel
  have d2 : Str.lit "txt" ≠ Str.lit "tb2j" := by decide +kernel
  have d3 : Str.lit "hdf5" ≠ Str.lit "tb2j" := by decide +kernel
  unfold chooseReader
  simp only
  by_cases h1 : fmt.lower = Str.lit "txt"
  · rw [if_pos h1]
    refine ⟨fun r => ?_, ?_⟩
    · cases r <;> simp [Reader.name, h1, d1, d2]
    · simp only [reduceCtorEq, false_iff, not_forall, not_not]
      exact ⟨.txt, h1⟩
  · rw [if_neg h1]
    by_cases h2 : fmt.lower = Str.lit "hdf5"
    · rw [if_pos h2]
      refine ⟨fun r => ?_, ?_⟩
      · cases r <;> simp [Reader.name, h2, d1.symm, d3]
      · simp only [reduceCtorEq, false_iff, not_forall, not_not]
        exact ⟨.hdf5, h2⟩
    · rw [if_neg h2]
      by_cases h3 : fmt.lower = Str.lit "tb2j"
      · rw [if_pos h3]
        refine ⟨fun r => ?_, ?_⟩
        · cases r <;> simp [Reader.name, h3, d2.symm, d3.symm]
        · simp only [reduceCtorEq, false_iff, not_forall, not_not]
          exact ⟨.tb2j, h3⟩
      · rw [if_neg h3]
        refine ⟨fun r => ?_, ?_⟩
        · cases r <;> simp [Reader.name, h1, h2, h3]
        · simp only [true_iff]
          intro r
          cases r
          · exact h1
          · exact h2
          · exact h3

/-- **C52**: without a format the end of the file name decides, and no exception is raised. -/
theorem C52_guess (filename : Str) :
    chooseReader filename none =
      .ok (if Str.lit ".hdf5" <:+ filename then .hdf5 else if Str.lit "exchange.out" <:+ filename then .tb2j else .txt) := by
  have d1 : Str.lit "hdf5" ≠ Str.lit "txt" := by decide +kernel
  have d2 : Str.lit "tb2j" ≠ Str.lit "txt" := by decide +kernel
  have d3 : Str.lit "tb2j" ≠ Str.lit "hdf5" := by decide +kernel
  unfold chooseReader
  simp only [Str.endsWith, List.isSuffixOf_iff_suffix]
  by_cases h1 : Str.lit ".hdf5" <:+ filename
  · simp only [if_pos h1, if_neg d1, if_true]
  · simp only [if_neg h1]
    by_cases h2 : Str.lit "exchange.out" <:+ filename
    · simp only [if_pos h2, if_neg d2, if_neg d3, if_true]
    · simp only [if_neg h2, if_true]

example : chooseReader (Str.lit "GdTe.hdf5") none = .ok .hdf5 ∧ chooseReader (Str.lit "Fe_exchange.out") none = .ok .tb2j ∧
    chooseReader (Str.lit "a.hdf5") (some (Str.lit "TB2J")) = .ok .tb2j ∧
    chooseReader (Str.lit "a.hdf5") (some (Str.lit "json")) = .error .valueError := by
  refine ⟨?_, ?_, ?_, ?_⟩ <;> rfl

end Magnopy
