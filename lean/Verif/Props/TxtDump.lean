import Verif.Lemmas.TxtDumpFile
import Verif.Lemmas.TxtDumpSample
import Mathlib.LinearAlgebra.Matrix.Gershgorin
import Mathlib.Analysis.Real.Pi.Bounds

/-!
# C50: a written model file is read back
-/

set_option autoImplicit false
set_option linter.unusedSectionVars false

namespace Magnopy
namespace Txt

open H5 (Full Frame)
open PyDict

section
variable {K : Type} [Field K] [LinearOrder K] [IsStrictOrderedRing K] {F : Fmt K} {L : Lib K} {o : Opts} {x : Full K}

theorem section_some {text : List Str} {found : PyDict Str (ℕ × ℕ)} {T : Table} (hf : ∀ n, (found.get? n).map (slice text) = T.find n)
    {name : String} {b : List Str} (h : T.find (Str.lit name) = some b) :
    sectionLines text found name = .ok b ∧ hasSection found name = true := by
  have := hf (Str.lit name)
  rw [h] at this
  obtain ⟨p, h1, h2⟩ := Option.map_eq_some_iff.1 this
  rw [sectionLines, hasSection, h1]
  exact ⟨congrArg Except.ok h2, rfl⟩

theorem section_none {text : List Str} {found : PyDict Str (ℕ × ℕ)} {T : Table} (hf : ∀ n, (found.get? n).map (slice text) = T.find n)
    {name : String} (h : T.find (Str.lit name) = none) : hasSection found name = false := by
  have := hf (Str.lit name)
  rw [h] at this
  rw [hasSection, Option.map_eq_none_iff.1 this]
  rfl

theorem ifSection_some {α : Type} {text : List Str} {found : PyDict Str (ℕ × ℕ)} {T : Table}
    (hf : ∀ n, (found.get? n).map (slice text) = T.find n) {name : String} {b : List Str} (h : T.find (Str.lit name) = some b)
    (f : List Str → Except PyErr α) (d : α) : ifSection text found name f d = f b := by
  obtain ⟨h1, h2⟩ := section_some hf h
  rw [ifSection, h1, h2]
  rfl

theorem ifSection_none {α : Type} {text : List Str} {found : PyDict Str (ℕ × ℕ)} {T : Table}
    (hf : ∀ n, (found.get? n).map (slice text) = T.find n) {name : String} (h : T.find (Str.lit name) = none)
    (f : List Str → Except PyErr α) (d : α) : ifSection text found name f d = .ok d := by
  rw [ifSection, section_none hf h]
  rfl

theorem mkHam_names (cell : M3 K) (as : List Atom) (f : Atom → AtomData K) (hf : ∀ a, (f a).name = a.name.toList) :
    (mkHam L cell (as.map f)).atoms.map Atom.name = as.map Atom.name := by
  simp only [mkHam, St.empty]
  apply List.ext_getElem
  · simp
  · intro i h1 h2
    simp [hf, String.ofList_toList]

theorem mkHam_data {cell : M3 K} {as : List Atom} {f : Atom → AtomData K} (hf : ∀ a, (f a).name = a.name.toList) {a' : Atom}
    (h : a' ∈ (mkHam L cell (as.map f)).atoms) : ∃ a ∈ as, a'.name = a.name ∧ dataOf (as.map f) a' = some (f a) := by
  simp only [mkHam, St.empty, List.mem_mapIdx] at h
  obtain ⟨i, hi, rfl⟩ := h
  rw [List.length_map] at hi
  refine ⟨as[i], List.getElem_mem hi, ?_, ?_⟩
  · simp [hf, String.ofList_toList]
  · simp only [dataOf]
    rw [show (((i : ℤ) + 1) - 1).toNat = i by omega]
    simp [hi]

/-- Reading the file written for a Hamiltonian that the format can hold. -/
theorem load_near (h : Prints F L) (hw : L.Words) (ha : o.angles = false) (ho : o.Complete) (hx : Writable F L x)
    (hE : x.cone.isSome → L.Euclid) :
    ∃ text y, dumpText F o x = .ok text ∧ load L text = .ok y ∧ Near o.halves x y ∧
      (∀ d ∈ y.data, d.gFactor = 2 ∧ d.charge = 0) ∧
      Both (fun q v => ∃ w : V3 K, (∀ i, Close 1 8 (w i) (v i)) ∧ q = vecMul w (L.recip y.cell)) y.spiral x.spiral ∧
      (x.ham.exch = [] → y.ham.dc = none ∧ y.ham.ef = none) ∧ (x.ham.onSite = [] → y.ham.osf = none) ∧
      (x.ham.exch = [] → x.ham.onSite = [] → y.ham.sn = none) := by
  have : CharZero K := inferInstance
  obtain ⟨text, P, ht, hP⟩ := dump_parts h ha hx.toPrintable
  obtain ⟨found, hv, hf⟩ := P.verify h hw ho hx.toPrintable
  obtain ⟨p1, p2, p3, p4, p5, p6, p7⟩ := P.find
  rw [← hP] at hv hf
  set cell : M3 K := Matrix.of fun i j => rd F L 8 (x.cell i j) with hcell
  set data := x.ham.atoms.map (datOf F L x) with hdata
  set s0 := mkHam L cell data with hs0
  have hnames : s0.atoms.map Atom.name = x.ham.atoms.map Atom.name := mkHam_names _ _ _ fun _ => rfl
  have hnd : (s0.atoms.map Atom.name).Nodup := hnames ▸ hx.kept.unique
  -- atoms by name
  have hex : ∀ n, ∃ a', n ∈ x.ham.atoms.map Atom.name → a' ∈ s0.atoms ∧ a'.name = n := by
    intro n
    by_cases hn : n ∈ x.ham.atoms.map Atom.name
    · obtain ⟨a', h1, h2⟩ := List.mem_map.1 (hnames ▸ hn)
      exact ⟨a', fun _ => ⟨h1, h2⟩⟩
    · exact ⟨⟨"", 0⟩, fun h => absurd h hn⟩
  choose ψ hψ using hex
  have hψ' : ∀ a ∈ x.ham.atoms, ψ a.name ∈ s0.atoms ∧ (ψ a.name).name = a.name :=
    fun a ha => hψ _ (List.mem_map_of_mem ha)
  have huniq : ∀ a' ∈ s0.atoms, ∀ b' ∈ s0.atoms, a'.name = b'.name → a' = b' :=
    fun a' ha b' hb e => List.inj_on_of_nodup_map hnd ha hb e
  have huniqx : ∀ a ∈ x.ham.atoms, ∀ b ∈ x.ham.atoms, a.name = b.name → a = b :=
    fun a' ha b' hb e => List.inj_on_of_nodup_map hx.kept.unique ha hb e
  have hψi : ∀ a ∈ x.ham.atoms, ∀ b ∈ x.ham.atoms, ψ a.name = ψ b.name → a = b := by
    intro a ha b hb e
    apply huniqx a ha b hb
    rw [← (hψ' a ha).2, ← (hψ' b hb).2, e]
  have hget : ∀ s : St K, s.atoms = s0.atoms → ∀ a ∈ x.ham.atoms, s.getAtom a.name = .ok (ψ a.name) := by
    intro s hs a ha
    have h1 := hψ' a ha
    have h2 := H5.getAtom_self (s := s) (by rw [hs]; exact hnd) (hs ▸ h1.1) (by rw [h1.2]; exact hx.kept.plain a ha)
    rwa [h1.2] at h2
  -- notation
  set s1 := noted x s0 with hs1
  have r1 : ifNotation L (flt text) found s0 = .ok s1 := by
    rw [ifNotation]
    by_cases h1 : x.ham.exch = []
    · rw [section_none hf (p4.trans (P.noExch h1))]
      by_cases h2 : x.ham.onSite = []
      · rw [section_none hf (p5.trans (P.noSite h2)), if_neg (by decide), hs1, noted]
        simp only [h1, h2, and_self, if_true]
        rfl
      · obtain ⟨c, e, -⟩ := P.site h2
        obtain ⟨n, e', hn⟩ := P.note fun h => h2 h.2
        rw [(section_some hf (p5.trans e)).2, (section_some hf (p3.trans e')).1]
        exact note_read hx.toPrintable (fun h => h2 h.2) hn rfl rfl rfl rfl rfl
    · obtain ⟨c, e, -⟩ := P.exch h1
      obtain ⟨n, e', hn⟩ := P.note fun h => h1 h.1
      rw [(section_some hf (p4.trans e)).2, (section_some hf (p3.trans e')).1]
      exact note_read hx.toPrintable (fun h => h1 h.1) hn rfl rfl rfl rfl rfl
  have hs1a : s1.Alloc := ⟨fun b r hb => (by cases hb), fun b r hb => (by cases hb)⟩
  have hs1e : ∀ b, s1.valE b = none := fun b => rfl
  have hs1o : ∀ b, s1.valO b = none := fun b => rfl
  -- exchange
  have hex2 : ∃ s2, ifSection (flt text) found "exchange" (fun t => readExchange L t s1) s1 = .ok s2 ∧ s2.Alloc ∧
      (s2.dc, s2.sn, s2.ef, s2.osf) = (s1.dc, s1.sn, s1.ef, s1.osf) ∧ s2.atoms = s1.atoms ∧ (∀ a, s2.valO a = none) ∧
      (∀ p ∈ x.ham.exch, ∃ J, Combined (given F L o (x.ham.cell p.2)) J ∧ s2.valE (ψ p.1.1.name, ψ p.1.2.1.name, p.1.2.2) = some J) ∧
      (∀ c, s2.valE c ≠ none → (∃ p ∈ x.ham.exch, c = (ψ p.1.1.name, ψ p.1.2.1.name, p.1.2.2)) ∨
        (s1.dc = some true ∧ ∃ p ∈ x.ham.exch, c = Bond.mirror (ψ p.1.1.name, ψ p.1.2.1.name, p.1.2.2))) := by
    by_cases h1 : x.ham.exch = []
    · refine ⟨s1, ifSection_none hf (p4.trans (P.noExch h1)) _ _, hs1a, rfl, rfl, hs1o, by simp [h1], fun c hc => absurd (hs1e c) hc⟩
    · obtain ⟨c, e, hc⟩ := P.exch h1
      obtain ⟨s2, e2, a2, t2, b2, v2, w2, x2, -⟩ := readBonds_own (ψ := ψ) h ho x.ham (l := x.ham.exch) hs1a
        (fun p hp => by
          obtain ⟨m1, m2⟩ := hx.kept.inv.refer.exch p.1 (List.mem_map_of_mem hp)
          exact ⟨hx.words _ m1, hx.words _ m2⟩)
        (fun p hp => by
          obtain ⟨m1, m2⟩ := hx.kept.inv.refer.exch p.1 (List.mem_map_of_mem hp)
          exact ⟨hget s1 rfl _ m1, hget s1 rfl _ m2⟩)
        (by
          have : (fun p : Bond × ℕ => ((ψ p.1.1.name, ψ p.1.2.1.name, p.1.2.2) : Bond)) =
            (fun b : Bond => ((ψ b.1.name, ψ b.2.1.name, b.2.2) : Bond)) ∘ Prod.fst := rfl
          rw [this, ← List.map_map]
          refine List.Nodup.map_on ?_ hx.kept.inv.nodup.exch
          intro b hb b' hb' e
          obtain ⟨m1, m2⟩ := hx.kept.inv.refer.exch b hb
          obtain ⟨m3, m4⟩ := hx.kept.inv.refer.exch b' hb'
          simp only [Prod.mk.injEq] at e
          exact Prod.ext (hψi _ m1 _ m3 e.1) (Prod.ext (hψi _ m2 _ m4 e.2.1) e.2.2))
      refine ⟨s2, ?_, a2, t2, b2, fun a => (v2 a).trans (hs1o a), w2, fun c hc => ?_⟩
      · obtain ⟨f, hf'⟩ := exchangeFactor_own (K := K) hc
        rw [ifSection_some hf (p4.trans e), readExchange]
        simp only [List.headD_cons, List.tail_cons, hf', bind, Except.bind, exchange_groups h hx.toPrintable, e2]
      · rcases x2 c hc with h' | h' | h'
        · exact absurd (hs1e c) h'
        · exact Or.inl h'
        · exact Or.inr h'
  obtain ⟨s2, r2, a2, t2, b2, v2, w2, x2⟩ := hex2
  simp only [Prod.mk.injEq] at t2
  -- on-site
  have hex3 : ∃ s3, ifSection (flt text) found "on-site" (fun t => readOnSite L t s2) s2 = .ok s3 ∧ Frame s2 s3 ∧
      (∀ c, s3.valE c = s2.valE c) ∧ (∀ p ∈ x.ham.onSite, s3.valO (ψ p.1.name) = some (rdO F L (x.ham.cell p.2))) ∧
      (∀ c, s3.valO c ≠ none → ∃ p ∈ x.ham.onSite, c = ψ p.1.name) := by
    by_cases h1 : x.ham.onSite = []
    · exact ⟨s2, ifSection_none hf (p5.trans (P.noSite h1)) _ _, Frame.rfl', fun _ => rfl, by simp [h1], fun c hc => absurd (v2 c) hc⟩
    · obtain ⟨C, e, hC⟩ := P.site h1
      cases hC with
      | cons t0 hC =>
      cases hC with
      | cons t1 hC =>
      rename_i c0 c1 C
      have e1 := says_sub t1
      subst e1
      have hm : ∀ p ∈ x.ham.onSite, p.1 ∈ x.ham.atoms := fun p hp => hx.kept.inv.refer.site p.1 (List.mem_map_of_mem hp)
      obtain ⟨s3, e3, f3, v3, w3, x3⟩ := readSites_own (ψ := ψ) h x.ham (l := x.ham.onSite) a2
        (fun p hp c hc => (notSep_name h hx.toPrintable (hm p hp) hc).1)
        (fun p hp => ⟨hget s2 b2 _ (hm p hp), b2 ▸ (hψ' _ (hm p hp)).1⟩)
        (by
          have : (fun p : Atom × ℕ => ψ p.1.name) = (fun a : Atom => ψ a.name) ∘ Prod.fst := rfl
          rw [this, ← List.map_map]
          refine List.Nodup.map_on ?_ hx.kept.inv.nodup.site
          intro b hb b' hb' e
          exact hψi _ (hx.kept.inv.refer.site b hb) _ (hx.kept.inv.refer.site b' hb') e) hC
      refine ⟨s3, ?_, f3, v3, w3, fun c hc => ?_⟩
      · rw [ifSection_some hf (p5.trans e), readOnSite]
        simp only [List.headD_cons, List.tail_cons, onSiteFactor_own t0, bind, Except.bind, siteLines_sub, e3]
      · by_contra hne
        apply hc
        rw [x3 c ?_, v2 c]
        intro hm
        obtain ⟨p, hp, rfl⟩ := List.mem_map.1 hm
        exact hne ⟨p, hp, rfl⟩
  obtain ⟨s3, r3, f3, v3, w3, x3⟩ := hex3
  -- ground state
  have hcone : ∃ u, ifSection (flt text) found "cone-axis" (fun t => (readCone L cell t).map some) none = .ok u ∧
      Both (fun v' v => ∀ i, Close 3 8 (v' i) (v i)) u x.cone := by
    cases hc : x.cone with
    | none => exact ⟨none, ifSection_none hf (p6.trans (P.noCone hc)) _ _, trivial⟩
    | some v =>
      obtain ⟨c, e, hC⟩ := P.cone v hc
      obtain ⟨u, e1, e2⟩ := cone_read h (hE (by rw [hc]; rfl)) (hx.kept.cone v hc) cell hC
      exact ⟨some u, by rw [ifSection_some hf (p6.trans e), e1]; rfl, e2⟩
  obtain ⟨cone, r4, k4⟩ := hcone
  have hspiral : ∃ u, ifSection (flt text) found "spiral-vector" (fun t => (readSpiral L cell t).map some) none = .ok u ∧
      Both (fun q v => ∃ w : V3 K, (∀ i, Close 1 8 (w i) (v i)) ∧ q = vecMul w (L.recip cell)) u x.spiral := by
    cases hc : x.spiral with
    | none => exact ⟨none, ifSection_none hf (p7.trans (P.noSpiral hc)) _ _, trivial⟩
    | some v =>
      obtain ⟨c, e, hC⟩ := P.spiral v hc
      exact ⟨some _, by rw [ifSection_some hf (p7.trans e), spiral_read h v cell hC]; rfl, _, fun i => h.close 8 _, rfl⟩
  obtain ⟨spiral, r5, k5⟩ := hspiral
  have hat : s3.atoms = s0.atoms := f3.atoms.trans b2
  refine ⟨text, ⟨cell, data, s3, cone, spiral⟩, ht, ?_, ?_, ?_, k5, ?_, ?_, ?_⟩
  · have q1 : (sectionLines (flt text) found "cell").bind (readCell L) = .ok (cell, ![1, 1, 1]) := by
      rw [(section_some hf p1).1]
      exact cell_read h P.cell
    have q2 : (sectionLines (flt text) found "atoms").bind (readAtoms L cell ![1, 1, 1]) = .ok data := by
      rw [(section_some hf p2).1]
      exact atoms_read h hx.spins P.atoms cell _
    have q3 : readAll L (flt text) found = .ok ⟨cell, data, s3, cone, spiral⟩ := by
      rw [readAll]
      rw [q1]
      show ((sectionLines (flt text) found "atoms").bind (readAtoms L cell ![1, 1, 1])).bind _ = _
      rw [q2]
      simp only [bind, Except.bind, ← hs0, r1, r2, r3, r4, r5]
    rw [load]
    simp only [show (filter text).map Prod.fst = flt text from rfl, hv, q3]
    rfl
  · refine ⟨fun i j => h.close 8 _, ?_, ?_, ⟨?_, ?_⟩, ?_, ?_, ?_, ?_, ?_, ?_, k4⟩
    · simp only [hat]; exact hnames
    · intro a ha a' ha' e
      simp only [hat] at ha'
      obtain ⟨b, hb, e1, e2⟩ := mkHam_data (L := L) (cell := cell) (f := datOf F L x) (fun _ => rfl) ha'
      have : b = a := huniqx b hb a ha (e1.symm.trans e)
      subst this
      obtain ⟨v, hv⟩ := Option.isSome_iff_exists.1 (hx.spins b ha)
      refine ⟨datOf F L x b, v, e2, hv, rfl, fun i => ?_, fun i => ?_⟩
      · fin_cases i <;> exact h.close 8 _
      · simp only [datOf, hv, Option.getD_some]
        fin_cases i <;> exact h.close 4 _
    · intro b hb
      simp only [hat]
      rcases x2 b (by rw [← v3 b]; exact H5.valE_mem.2 hb) with ⟨p, hp, rfl⟩ | ⟨_, p, hp, rfl⟩
      · obtain ⟨m1, m2⟩ := hx.kept.inv.refer.exch p.1 (List.mem_map_of_mem hp)
        exact ⟨(hψ' _ m1).1, (hψ' _ m2).1⟩
      · obtain ⟨m1, m2⟩ := hx.kept.inv.refer.exch p.1 (List.mem_map_of_mem hp)
        exact ⟨(hψ' _ m2).1, (hψ' _ m1).1⟩
    · intro a ha
      simp only [hat]
      obtain ⟨p, hp, rfl⟩ := x3 a (H5.valO_mem.2 ha)
      exact (hψ' _ (hx.kept.inv.refer.site p.1 (List.mem_map_of_mem hp))).1
    · intro a ha b hb a' ha' b' hb' ea eb R
      simp only [hat] at ha' hb'
      have ea' : a' = ψ a.name := huniq _ ha' _ (hψ' a ha).1 (ea.trans (hψ' a ha).2.symm)
      have eb' : b' = ψ b.name := huniq _ hb' _ (hψ' b hb).1 (eb.trans (hψ' b hb).2.symm)
      simp only [v3]
      cases hg : x.ham.exch.get? (a, b, R) with
      | some r =>
        obtain ⟨J, j1, j2⟩ := w2 _ (mem_of_get? hg)
        have hx' : x.ham.valE (a, b, R) = some (x.ham.cell r) := by rw [St.valE, hg]; rfl
        rw [ea', eb', j2, hx']
        exact fun i j => given_close h ho j1 i j
      | none =>
        have hx' : x.ham.valE (a, b, R) = none := by rw [St.valE, hg]; rfl
        rw [hx']
        cases hy : s2.valE (a', b', R) with
        | none => trivial
        | some J =>
        exfalso
        rw [get?_eq_none_iff] at hg
        rcases x2 (a', b', R) (by rw [hy]; simp) with ⟨p, hp, e⟩ | ⟨hd, p, hp, e⟩
        · have hpk : p.1 ∈ x.ham.exch.keys := List.mem_map_of_mem hp
          obtain ⟨m1, m2⟩ := hx.kept.inv.refer.exch p.1 hpk
          simp only [Prod.mk.injEq] at e
          have : p.1 = (a, b, R) := by
            refine Prod.ext (hψi _ m1 _ ha ?_) (Prod.ext (hψi _ m2 _ hb ?_) ?_)
            · rw [← e.1, ea']
            · rw [← e.2.1, eb']
            · exact e.2.2.symm
          exact hg (this ▸ hpk)
        · have hpk : p.1 ∈ x.ham.exch.keys := List.mem_map_of_mem hp
          obtain ⟨m1, m2⟩ := hx.kept.inv.refer.exch p.1 hpk
          simp only [Bond.mirror, Prod.mk.injEq] at e
          have : p.1.mirror = (a, b, R) := by
            refine Prod.ext (hψi _ m2 _ ha ?_) (Prod.ext (hψi _ m1 _ hb ?_) ?_)
            · show ψ p.1.2.1.name = _
              rw [← e.1, ea']
            · show ψ p.1.1.name = _
              rw [← e.2.1, eb']
            · exact e.2.2.symm
          have hd' : x.ham.dc = some true := by
            have h0 : x.ham.exch ≠ [] := fun h0 => by simp [h0] at hp
            rwa [hs1, noted, if_neg h0] at hd
          exact hg (this ▸ hx.kept.inv.closed hd' _ hpk)
    · intro a ha a' ha' ea
      simp only [hat] at ha'
      have ea' : a' = ψ a.name := huniq _ ha' _ (hψ' a ha).1 (ea.trans (hψ' a ha).2.symm)
      cases hg : x.ham.onSite.get? a with
      | some r =>
        have hx' : x.ham.valO a = some (x.ham.cell r) := by rw [St.valO, hg]; rfl
        simp only [ea', w3 _ (mem_of_get? hg), hx']
        exact fun i j => rdO_close h (hx.symmetric a _ hx') i j
      | none =>
        have hx' : x.ham.valO a = none := by rw [St.valO, hg]; rfl
        rw [hx']
        cases hy : s3.valO a' with
        | none => trivial
        | some J =>
        exfalso
        rw [get?_eq_none_iff] at hg
        obtain ⟨p, hp, e⟩ := x3 a' (by rw [hy]; simp)
        have hpk : p.1 ∈ x.ham.onSite.keys := List.mem_map_of_mem hp
        have : p.1 = a := hψi _ (hx.kept.inv.refer.site _ hpk) _ ha (by rw [← e, ea'])
        exact hg (this ▸ hpk)
    · intro h0
      have : s3.sn = s1.sn := f3.sn.trans t2.2.1
      simp only [this, hs1, noted]
      rw [if_neg (by tauto)]
    · intro h0
      have : s3.dc = s1.dc := f3.dc.trans t2.1
      simp only [this, hs1, noted]
      rw [if_neg h0]
    · intro h0
      have : s3.ef = s1.ef := f3.ef.trans t2.2.2.1
      simp only [this, hs1, noted]
      rw [if_neg h0]
    · intro h0
      have : s3.osf = s1.osf := f3.osf.trans t2.2.2.2
      simp only [this, hs1, noted]
      rw [if_neg h0]
  · intro d hd
    obtain ⟨a, -, rfl⟩ := List.mem_map.1 hd
    exact ⟨rfl, rfl⟩
  · intro h0
    refine ⟨(f3.dc.trans t2.1).trans ?_, (f3.ef.trans t2.2.2.1).trans ?_⟩ <;> simp only [hs1, noted] <;> rw [if_pos h0]
  · intro h0
    refine (f3.osf.trans t2.2.2.2).trans ?_
    simp only [hs1, noted]
    rw [if_pos h0]
  · intro h0 h0'
    refine (f3.sn.trans t2.2.1).trans ?_
    simp only [hs1, noted]
    rw [if_pos ⟨h0, h0'⟩]

/-- **C50** (partial): a written model file is accepted and read back as the same Hamiltonian up to the printed precision.
Missing: bonds of a site with itself, antisymmetric on-site parts, atoms without spins, files without atoms and factors that are
not printed exactly are excluded by `Writable`; `write_spin_angles` is excluded; the spiral vector comes back multiplied by the
reciprocal cell; every atom gets the g-factor 2 and no charge; the notation is restored exactly as far as it belongs to existing
parameters. -/
theorem C50_roundtrip_partial (h : Prints F L) (hw : L.Words) (ha : o.angles = false) (ho : o.Complete) (hx : Writable F L x)
    (hE : x.cone.isSome → L.Euclid) : ∃ text y, dumpText F o x = .ok text ∧ load L text = .ok y ∧ Near o.halves x y ∧
      (∀ d ∈ y.data, d.gFactor = 2 ∧ d.charge = 0) ∧
      Both (fun q v => ∃ w : V3 K, (∀ i, Close 1 8 (w i) (v i)) ∧ q = vecMul w (L.recip y.cell)) y.spiral x.spiral ∧
      (x.ham.exch = [] → y.ham.dc = none ∧ y.ham.ef = none) ∧ (x.ham.onSite = [] → y.ham.osf = none) ∧
      (x.ham.exch = [] → x.ham.onSite = [] → y.ham.sn = none) :=
  load_near h hw ha ho hx hE

/-- **C50**: whatever else it holds, a Hamiltonian with an atom without spin is written, the file is accepted, and reading it
raises `ValueError`. -/
theorem C50_no_spin (h : Prints F L) (hw : L.Words) (hm : L.float ['-'] = none) (ha : o.angles = false) (ho : o.Complete)
    (hx : Printable F L x) (hs : ∃ a ∈ x.ham.atoms, x.spinVec a = none) :
    ∃ text, dumpText F o x = .ok text ∧ load L text = .error (.py .valueError) := by
  obtain ⟨text, P, ht, hP⟩ := dump_parts h ha hx
  obtain ⟨found, hv, hf⟩ := P.verify h hw ho hx
  obtain ⟨p1, p2, -⟩ := P.find
  rw [← hP] at hv hf
  refine ⟨text, ht, ?_⟩
  set cell : M3 K := Matrix.of fun i j => rd F L 8 (x.cell i j) with hcell
  have q1 : (sectionLines (flt text) found "cell").bind (readCell L) = .ok (cell, ![1, 1, 1]) := by
    rw [(section_some hf p1).1]
    exact cell_read h P.cell
  have q2 : (sectionLines (flt text) found "atoms").bind (readAtoms L cell ![1, 1, 1]) = .error .valueError := by
    rw [(section_some hf p2).1]
    exact atoms_fail h hm hs P.atoms cell _
  have q3 : readAll L (flt text) found = .error .valueError := by
    rw [readAll]
    rw [q1]
    show ((sectionLines (flt text) found "atoms").bind (readAtoms L cell ![1, 1, 1])).bind _ = _
    rw [q2]
    rfl
  rw [load]
  simp only [show (filter text).map Prod.fst = flt text from rfl, hv, q3]
  rfl

/-- **C50**: g-factors and charges are not written. -/
theorem C50_forgets (F : Fmt K) (o : Opts) (x : Full K) (g : Atom → K) (c : Atom → Option K) :
    dumpText F o { x with gFactor := g, charge := c } = dumpText F o x := by
  have : ∀ as, atomsText F o { x with gFactor := g, charge := c } as = atomsText F o x as := by
    intro as
    induction as with
    | nil => rfl
    | cons a as ih => rw [atomsText, atomsText, ih]
  rw [dumpText, dumpText, this]

/-- **C50**: bonds of a site with itself are not written. -/
theorem C50_self (F : Fmt K) (o : Opts) (x : Full K)
    (hne : x.ham.exch.filter (fun p => decide (¬ (p.1.1 = p.1.2.1 ∧ p.1.2.2 = (0, 0, 0)))) ≠ []) :
    dumpText F o { x with ham := { x.ham with exch := x.ham.exch.filter (fun p => decide (¬ (p.1.1 = p.1.2.1 ∧ p.1.2.2 = (0, 0, 0)))) } } =
      dumpText F o x := by
  obtain ⟨e, he⟩ : ∃ e, e = x.ham.exch.filter (fun p => decide (¬ (p.1.1 = p.1.2.1 ∧ p.1.2.2 = (0, 0, 0)))) := ⟨_, rfl⟩
  rw [← he] at hne ⊢
  have h0 : x.ham.exch ≠ [] := fun h0 => hne (by rw [he, h0]; rfl)
  have hb : ∀ l : List (Bond × ℕ), bondsText F o { x.ham with exch := e }
      (l.filter (fun p => decide (¬ (p.1.1 = p.1.2.1 ∧ p.1.2.2 = (0, 0, 0))))) = bondsText F o x.ham l := by
    intro l
    induction l with
    | nil => rfl
    | cons p ps ih =>
      by_cases hp : p.1.1 = p.1.2.1 ∧ p.1.2.2 = (0, 0, 0)
      · rw [List.filter_cons_of_neg (by simpa using hp), bondsText, if_pos hp, ih]; rfl
      · rw [List.filter_cons_of_pos (by exact decide_eq_true hp), bondsText, bondsText, if_neg hp, ih]
  have ht : ∀ as, atomsText F o { x with ham := { x.ham with exch := e } } as = atomsText F o x as := by
    intro as
    induction as with
    | nil => rfl
    | cons a as ih => rw [atomsText, atomsText, ih]
  have hx : exchangeText F o { x.ham with exch := e } = exchangeText F o x.ham := by
    rw [exchangeText, exchangeText, if_neg hne, if_neg h0]
    have := hb x.ham.exch
    rw [← he] at this
    rw [this]
  have hn : notationText F { x.ham with exch := e } = notationText F x.ham := by
    rw [notationText, notationText, if_neg (fun h => hne h.1), if_neg (fun h => h0 h.1)]
    have : notationExchange F { x.ham with exch := e } = notationExchange F x.ham := by
      rw [notationExchange, notationExchange, if_neg hne, if_neg h0]
    rw [this]
    rfl
  rw [dumpText, dumpText]
  simp only [ht, hn, hx]
  rfl

/-- **C50**: a bond of a site with itself does not come back (if there is another bond). -/
theorem C50_self_lost (h : Prints F L) (hw : L.Words) (ha : o.angles = false) (ho : o.Complete)
    (hne : x.ham.exch.filter (fun p => decide (¬ (p.1.1 = p.1.2.1 ∧ p.1.2.2 = (0, 0, 0)))) ≠ [])
    (hx : Writable F L { x with ham := { x.ham with
      exch := x.ham.exch.filter (fun p => decide (¬ (p.1.1 = p.1.2.1 ∧ p.1.2.2 = (0, 0, 0)))) } })
    (hE : x.cone.isSome → L.Euclid) : ∃ text y, dumpText F o x = .ok text ∧ load L text = .ok y ∧
      ∀ a' ∈ y.ham.atoms, y.ham.valE (a', a', (0, 0, 0)) = none := by
  obtain ⟨t, y, h1, h2, h3, -⟩ := load_near h hw ha ho hx hE
  rw [C50_self F o x hne] at h1
  refine ⟨t, y, h1, h2, fun a' ha' => ?_⟩
  obtain ⟨a, ha, e⟩ : ∃ a ∈ x.ham.atoms, a.name = a'.name :=
    List.mem_map.1 (h3.names ▸ List.mem_map_of_mem (f := Atom.name) ha')
  have hB := h3.exchange a ha a ha a' ha' a' ha' e.symm e.symm (0, 0, 0)
  cases hy : y.ham.valE (a', a', (0, 0, 0)) with
  | none => rfl
  | some m =>
    rw [hy] at hB
    cases hv : St.valE { x.ham with exch := x.ham.exch.filter (fun p => decide (¬ (p.1.1 = p.1.2.1 ∧ p.1.2.2 = (0, 0, 0)))) }
        (a, a, (0, 0, 0)) with
    | none => rw [hv] at hB; exact hB.elim
    | some m' =>
      exfalso
      rw [St.valE] at hv
      obtain ⟨r, hr, -⟩ := Option.map_eq_some_iff.1 hv
      have := List.mem_filter.1 (mem_of_get? hr)
      simp at this

/-- **C50**: of an on-site matrix only the diagonal and the upper triangle are written. -/
theorem C50_antisymmetric (F : Fmt K) (o : Opts) (x : Full K) (cell : ℕ → M3 K) (hE : ∀ p ∈ x.ham.exch, cell p.2 = x.ham.cell p.2)
    (hO : ∀ p ∈ x.ham.onSite, ∀ i j, i ≤ j → cell p.2 i j = x.ham.cell p.2 i j) :
    dumpText F o { x with ham := { x.ham with cell := cell } } = dumpText F o x := by
  have hb : ∀ l : List (Bond × ℕ), (∀ p ∈ l, cell p.2 = x.ham.cell p.2) →
      bondsText F o { x.ham with cell := cell } l = bondsText F o x.ham l := by
    intro l hl
    induction l with
    | nil => rfl
    | cons p ps ih =>
      rw [bondsText, bondsText, ih fun q hq => hl q (List.mem_cons_of_mem _ hq)]
      show (if _ then [] else bondText F o p.1 (x.ham.dist p.1) (cell p.2) ++ [subSeparator]) ++ _ = _
      rw [hl p List.mem_cons_self]
  have hs : ∀ l : List (Atom × ℕ), (∀ p ∈ l, ∀ i j, i ≤ j → cell p.2 i j = x.ham.cell p.2 i j) →
      l.flatMap (fun p => siteText F p.1 (cell p.2)) = l.flatMap (fun p => siteText F p.1 (x.ham.cell p.2)) := by
    intro l hl
    induction l with
    | nil => rfl
    | cons p ps ih =>
      rw [List.flatMap_cons, List.flatMap_cons, ih fun q hq => hl q (List.mem_cons_of_mem _ hq)]
      have := hl p List.mem_cons_self
      rw [siteText, siteText, this 0 0 (by decide), this 1 1 (by decide), this 2 2 (by decide), this 0 1 (by decide),
        this 0 2 (by decide), this 1 2 (by decide)]
  have ht : ∀ as, atomsText F o { x with ham := { x.ham with cell := cell } } as = atomsText F o x as := by
    intro as
    induction as with
    | nil => rfl
    | cons a as ih => rw [atomsText, atomsText, ih]
  have e1 : exchangeText F o { x.ham with cell := cell } = exchangeText F o x.ham := by
    rw [exchangeText, exchangeText]
    dsimp only
    rw [hb _ hE]
  have e2 : onSiteText F { x.ham with cell := cell } = onSiteText F x.ham := by
    rw [onSiteText, onSiteText]
    dsimp only
    rw [hs _ hO]
  rw [dumpText, dumpText]
  simp only [ht, e1, e2]
  rfl

/-- **C50**: `write_spin_angles=True` raises `AttributeError` as soon as one atom has a spin. -/
theorem C50_angles (ha : o.angles = true) (hs : ∃ a ∈ x.ham.atoms, (x.spinVec a).isSome) : dumpText F o x = .error .attributeError := by
  have : ∀ as : List Atom, (∃ a ∈ as, (x.spinVec a).isSome) → atomsText F o x as = .error .attributeError := by
    intro as
    induction as with
    | nil => intro h; simp at h
    | cons a as ih =>
      intro h
      rw [atomsText]
      cases hv : x.spinVec a with
      | some v => simp [spinText, ha]
      | none =>
        obtain ⟨b, hb, hb'⟩ := h
        rcases List.mem_cons.1 hb with rfl | hb
        · simp [hv] at hb'
        · rw [ih ⟨b, hb, hb'⟩]; simp [spinText]
  rw [dumpText, this _ hs]

/-- **C50**: without a needed part of the notation nothing is written, `NotationError` is raised. -/
theorem C50_notation (ha : o.angles = false)
    (hn : (x.ham.exch ≠ [] ∨ x.ham.onSite ≠ []) ∧ x.ham.sn = none ∨ x.ham.exch ≠ [] ∧ (x.ham.dc = none ∨ x.ham.ef = none) ∨
      x.ham.onSite ≠ [] ∧ x.ham.osf = none) : dumpText F o x = .error .notationError := by
  have h1 : ∀ as : List Atom, ∃ ts, atomsText F o x as = .ok ts := by
    intro as
    induction as with
    | nil => exact ⟨_, rfl⟩
    | cons a as ih =>
      obtain ⟨ts, ih⟩ := ih
      rw [atomsText, ih]
      cases hv : x.spinVec a <;> simp [spinText, ha]
  obtain ⟨ts, ht⟩ := h1 x.ham.atoms
  have hne : ¬ (x.ham.exch = [] ∧ x.ham.onSite = []) := by tauto
  have h2 : notationText F x.ham = .error .notationError := by
    rw [notationText, if_neg hne]
    cases hs : x.ham.sn with
    | none => rfl
    | some b =>
      simp only [hs, reduceCtorEq, and_false, false_or] at hn
      by_cases he : x.ham.exch ≠ [] ∧ (x.ham.dc = none ∨ x.ham.ef = none)
      · have : notationExchange F x.ham = .error .notationError := by
          rw [notationExchange, if_neg he.1]
          rcases he.2 with h | h <;> rw [h]
          cases x.ham.dc <;> rfl
        simp only [this]
      · have ho := hn.resolve_left he
        have : notationSite F x.ham = .error .notationError := by
          rw [notationSite, if_neg ho.1, ho.2]
        have h3 : ∃ l, notationExchange F x.ham = .ok l := by
          rw [notationExchange]
          by_cases h0 : x.ham.exch = []
          · rw [if_pos h0]; exact ⟨_, rfl⟩
          · rw [if_neg h0]
            cases hd : x.ham.dc with
            | none => exact absurd ⟨h0, .inl hd⟩ he
            | some d =>
              cases hf : x.ham.ef with
              | none => exact absurd ⟨h0, .inr hf⟩ he
              | some e => exact ⟨_, rfl⟩
        obtain ⟨l, h3⟩ := h3
        simp only [this, h3]
  rw [dumpText, ht, h2]

end

/-! ### The full statement -/

/-- The reciprocal cell. -/
def Lib.Recip (L : Lib ℝ) : Prop := ∀ m : M3 ℝ, m.det ≠ 0 → L.recip m * m.transpose = (2 * Real.pi) • (1 : M3 ℝ)

/-- **C50**, full statement (false of the code): for every Hamiltonian with complete notation and spins whose atoms have
ordinary names, the file written with the default options is read back up to the printed precision. -/
def C50_statement : Prop :=
  ∀ (F : Fmt ℝ) (L : Lib ℝ) (x : Full ℝ), Prints F L → L.Words → L.Euclid → L.Recip → H5.Storable x → x.cell.det ≠ 0 →
    (∀ a ∈ x.ham.atoms, Plain a.name.toList ∧ ∀ c t, a.name.toList = c :: t → L.alnum c = true) →
    (∀ e, x.ham.ef = some e → L.float (F.repr e) = some e) → (∀ e, x.ham.osf = some e → L.float (F.repr e) = some e) →
    ∃ text y, dumpText F {} x = .ok text ∧ load L text = .ok y ∧ Near 1 x y ∧
      Both (fun q v => ∀ i, Close 1 8 (q i) (v i)) y.spiral x.spiral

/-- **C50**: with the cell 1 and the spiral vector (1, 0, 0) what is read back is never close to what was written, however
numbers are formatted. -/
theorem C50_spiral_false {F : Fmt ℝ} {L : Lib ℝ} (h : Prints F L) (hw : L.Words) (hE : L.Euclid) (hR : L.Recip) {o : Opts}
    (ha : o.angles = false) (ho : o.Complete) {x : Full ℝ} (hx : Writable F L x) (hc : x.cell = 1)
    (hs : x.spiral = some ![1, 0, 0]) : ∃ text y, dumpText F o x = .ok text ∧ load L text = .ok y ∧
      ¬ Both (fun q v => ∀ i, Close 1 8 (q i) (v i)) y.spiral x.spiral := by
  obtain ⟨text, y, h1, h2, h3, -, h5, -⟩ := load_near h hw ha ho hx (fun _ => hE)
  refine ⟨text, y, h1, h2, fun hB => ?_⟩
  rw [hs] at h5 hB
  cases hq : y.spiral with
  | none => rw [hq] at hB; exact hB
  | some q =>
  rw [hq] at h5 hB
  simp only [Both] at h5 hB
  obtain ⟨w, hw', rfl⟩ := h5
  have hm := h3.cell
  rw [hc] at hm
  have e8 : ∀ a b : ℝ, Close 1 8 a b → |a - b| ≤ 1 / 100 := by
    intro a b hab
    have : |a - b| * (2 * 10 ^ 8) ≤ ((1 : ℕ) : ℝ) := hab
    push_cast at this
    linarith [abs_nonneg (a - b)]
  have hm' : ∀ i j, |y.cell i j - (1 : M3 ℝ) i j| ≤ 1 / 100 := fun i j => e8 _ _ (hm i j)
  have hdet : y.cell.det ≠ 0 := by
    apply det_ne_zero_of_sum_row_lt_diag
    intro k
    have off : ∀ j, j ≠ k → ‖y.cell k j‖ ≤ 1 / 100 := by
      intro j hj
      have := hm' k j
      rwa [Matrix.one_apply_ne (Ne.symm hj), sub_zero] at this
    have dia : 99 / 100 ≤ ‖y.cell k k‖ := by
      have := hm' k k
      rw [Matrix.one_apply_eq, abs_le] at this
      rw [Real.norm_eq_abs]
      linarith [le_abs_self (y.cell k k)]
    calc ∑ j ∈ Finset.univ.erase k, ‖y.cell k j‖ ≤ ∑ j ∈ Finset.univ.erase k, (1 / 100 : ℝ) :=
          Finset.sum_le_sum fun j hj => off j (Finset.ne_of_mem_erase hj)
      _ = 2 / 100 := by rw [Finset.sum_const, Finset.card_erase_of_mem (Finset.mem_univ k)]; norm_num
      _ < _ := by linarith
  obtain ⟨q, hqd⟩ : ∃ q, q = vecMul w (L.recip y.cell) := ⟨_, rfl⟩
  have key : Matrix.vecMul q y.cell.transpose = (2 * Real.pi) • w := by
    have e : q = Matrix.vecMul w (L.recip y.cell) := by
      rw [hqd]
      funext i
      simp [vecMul, Matrix.vecMul, dotProduct, Fin.sum_univ_three]
    rw [e, Matrix.vecMul_vecMul, hR _ hdet, Matrix.vecMul_smul, Matrix.vecMul_one]
  have k0 := congrFun key 0
  simp only [Matrix.vecMul, dotProduct, Fin.sum_univ_three, Matrix.transpose_apply, Pi.smul_apply, smul_eq_mul] at k0
  rw [← hqd] at hB
  have q0 := abs_le.1 (e8 _ _ (hB 0))
  have q1 := e8 _ _ (hB 1)
  have q2 := e8 _ _ (hB 2)
  have w0 := abs_le.1 (e8 _ _ (hw' 0))
  have c0 := abs_le.1 (hm' 0 0)
  have c1 := hm' 0 1
  have c2 := hm' 0 2
  rw [Matrix.one_apply_eq] at c0
  rw [Matrix.one_apply_ne (by decide), sub_zero] at c1 c2
  simp only [Matrix.cons_val_zero, Matrix.cons_val_one, Matrix.cons_val, sub_zero] at q0 q1 q2 w0
  have p1 : q 1 * y.cell 0 1 ≤ 1 / 100 * (1 / 100) :=
    (le_abs_self _).trans (by rw [abs_mul]; exact mul_le_mul q1 c1 (abs_nonneg _) (by norm_num))
  have p2 : q 2 * y.cell 0 2 ≤ 1 / 100 * (1 / 100) :=
    (le_abs_self _).trans (by rw [abs_mul]; exact mul_le_mul q2 c2 (abs_nonneg _) (by norm_num))
  have p0 : q 0 * y.cell 0 0 ≤ 101 / 100 * (101 / 100) :=
    mul_le_mul (by linarith) (by linarith) (by linarith) (by norm_num)
  have p3 : 2 * 3 * (99 / 100) ≤ 2 * Real.pi * w 0 :=
    mul_le_mul (by linarith [Real.pi_gt_three]) (by linarith) (by norm_num) (by linarith [Real.pi_gt_three])
  linarith

/-! ### Concrete files -/

namespace DumpEx

/-- The real numbers in decimal notation. -/
noncomputable def R : Lib ℝ :=
  decimalLib (fun v => Real.sqrt (v 0 * v 0 + v 1 * v 1 + v 2 * v 2)) Real.sin Real.cos fun m => (2 * Real.pi) • m⁻¹.transpose

theorem R_prints : Prints (decimalFmt []) R := decimal_prints (by simp) _ _ _ _

theorem R_words : R.Words := decimal_words _ _ _ _

theorem R_euclid : R.Euclid where
  nonneg _ := Real.sqrt_nonneg _
  square v := Real.mul_self_sqrt (by nlinarith [mul_self_nonneg (v 0), mul_self_nonneg (v 1), mul_self_nonneg (v 2)])

theorem R_recip : R.Recip := by
  intro m hm
  show ((2 * Real.pi) • m⁻¹.transpose) * m.transpose = _
  rw [Matrix.smul_mul, ← Matrix.transpose_mul, Matrix.mul_nonsing_inv _ (Ne.isUnit hm), Matrix.transpose_one]

/-- One atom without parameters, with cone axis and spiral vector. -/
noncomputable def one : Full ℝ where
  cell := 1
  pos _ := ![0, 1 / 2, 1 / 3]
  spinVec _ := some ![0, 3 / 5, 4 / 5]
  gFactor _ := 2
  charge _ := none
  ham := { cell := fun _ => 0, next := 0, atoms := [⟨"Fe", 1⟩], exch := [], onSite := [], dc := none, sn := none, ef := none,
           osf := none, spin := fun _ => some 1, dist := fun _ => 1 }
  spiral := some ![1, 0, 0]
  cone := some ![0, 3 / 5, 4 / 5]

theorem one_storable : H5.Storable one where
  inv := ⟨⟨by simp [one, PyDict.keys], by simp [one, PyDict.keys]⟩, ⟨by simp [one, PyDict.keys], by simp [one, PyDict.keys]⟩,
    fun h => by simp [one] at h⟩
  unique := by simp [one]
  named := by simp [one]
  plain := by
    intro a ha
    simp only [one, List.mem_singleton] at ha
    subst ha
    decide
  spins := fun _ _ => rfl
  sn := fun h => by simp [one] at h
  dc := fun h => by simp [one] at h
  ef := fun h => by simp [one] at h
  osf := fun h => by simp [one] at h
  cone := by
    intro n hn
    simp only [one, Option.some.injEq] at hn
    subst hn
    show (0 : ℝ) * 0 + 3 / 5 * (3 / 5) + 4 / 5 * (4 / 5) = 1
    norm_num

theorem Fe_plain : Plain "Fe".toList := ⟨by decide, by decide, by decide⟩

theorem one_writable : Writable (decimalFmt []) R one where
  kept := one_storable.toKept
  spins := one_storable.spins
  atoms := by simp [one]
  words := by
    intro a ha
    simp only [one, List.mem_singleton] at ha
    subst ha
    exact Fe_plain
  letter := by
    intro a ha c t h
    simp only [one, List.mem_singleton] at ha
    subst ha
    have : c = 'F' := by
      have h' : ['F', 'e'] = c :: t := h
      cases h'
      rfl
    subst this
    rfl
  noSelf := by simp [one, PyDict.keys]
  symmetric := by
    intro a m h
    simp [one, St.valO, PyDict.get?] at h
  ef := fun e h => by simp [one] at h
  osf := fun e h => by simp [one] at h

/-- The cone axis comes back, the spiral vector does not. -/
example : ∃ text y, dumpText (decimalFmt []) {} one = .ok text ∧ load R text = .ok y ∧ Near 1 one y ∧
    ¬ Both (fun q v => ∀ i, Close 1 8 (q i) (v i)) y.spiral one.spiral := by
  obtain ⟨t, y, h1, h2, h3, -⟩ := C50_roundtrip_partial R_prints R_words rfl (Or.inl rfl) one_writable (fun _ => R_euclid)
    (o := {})
  obtain ⟨t', y', g1, g2, g3⟩ := C50_spiral_false R_prints R_words R_euclid R_recip rfl (Or.inl rfl) one_writable rfl rfl (o := {})
  rw [h1] at g1
  cases g1
  rw [h2] at g2
  cases g2
  exact ⟨t, y, h1, h2, h3, g3⟩

/-- The rational numbers in decimal notation. -/
def Q : Lib ℚ := decimalLib (fun _ => 1) (fun _ => 0) (fun _ => 1) fun m => m

/-- The format of the examples. -/
def F : Fmt ℚ := decimalFmt [Str.lit "# logo"]

theorem Q_prints : Prints F Q := decimal_prints (by simp [Str.lit]) _ _ _ _

theorem Q_words : Q.Words := decimal_words _ _ _ _

/-- Two atoms, one bond stored in both directions, one on-site parameter. -/
def two : Full ℚ where
  cell := Matrix.of ![![5 / 2, 0, 0], ![0, 3, 0], ![1 / 3, 0, 4]]
  pos a := ![a.index, 0, 1 / 2]
  spinVec _ := some ![0, 3 / 5, 4 / 5]
  gFactor _ := 2
  charge a := if a.index = 1 then some 3 else none
  ham := { cell := fun r => if r = 2 then Matrix.of ![![1, 2, 3], ![2, 4, 5], ![3, 5, 6]] else
             if r = 0 then Matrix.of ![![1 / 3, 1, 0], ![3, -4, 5], ![0, 0, 7]] else Matrix.of ![![1 / 3, 3, 0], ![1, -4, 0], ![0, 5, 7]]
           next := 3, atoms := [⟨"Fe1", 1⟩, ⟨"Fe2", 2⟩]
           exch := [((⟨"Fe1", 1⟩, ⟨"Fe2", 2⟩, (1, 0, 0)), 0), ((⟨"Fe2", 2⟩, ⟨"Fe1", 1⟩, (-1, 0, 0)), 1)], onSite := [(⟨"Fe2", 2⟩, 2)]
           dc := some true, sn := some false, ef := some (1 / 2), osf := some (-1), spin := fun _ => some 1, dist := fun _ => 1 }
  spiral := none
  cone := none

theorem two_storable : H5.Storable two where
  inv := ⟨⟨by decide +kernel, by decide +kernel⟩, ⟨by decide +kernel, by decide +kernel⟩, fun _ => by decide +kernel⟩
  unique := by decide +kernel
  named := by decide +kernel
  plain := by decide +kernel
  spins := fun _ _ => rfl
  sn := fun _ => rfl
  dc := fun _ => rfl
  ef := fun _ => rfl
  osf := fun _ => rfl
  cone := by
    intro n hn
    simp [two] at hn

theorem two_writable : Writable F Q two where
  kept := two_storable.toKept
  spins := two_storable.spins
  atoms := by decide +kernel
  words := by
    intro a ha
    simp only [two, List.mem_cons, List.not_mem_nil, or_false] at ha
    rcases ha with rfl | rfl <;> exact ⟨by decide, by decide, by decide⟩
  letter := by
    intro a ha c t h
    simp only [two, List.mem_cons, List.not_mem_nil, or_false] at ha
    have : c = 'F' := by
      rcases ha with rfl | rfl
      · have h' : ['F', 'e', '1'] = c :: t := h
        cases h'
        rfl
      · have h' : ['F', 'e', '2'] = c :: t := h
        cases h'
        rfl
    subst this
    rfl
  noSelf := by decide +kernel
  symmetric := by
    intro a m h
    have hm : m = two.ham.cell 2 := by
      rw [St.valO] at h
      obtain ⟨r, hr, rfl⟩ := Option.map_eq_some_iff.1 h
      have := PyDict.mem_of_get? hr
      simp only [two, List.mem_singleton, Prod.mk.injEq] at this
      rw [this.2]
    rw [hm]
    decide +kernel
  ef := by
    intro e h
    have : e = 1 / 2 := by simpa [two] using h.symm
    subst this
    decide +kernel
  osf := by
    intro e h
    have : e = -1 := by simpa [two] using h.symm
    subst this
    decide +kernel

/-- The file of the example is read back, and the values are the rounded ones. -/
example : ∃ text y, dumpText F {} two = .ok text ∧ load Q text = .ok y ∧ Near 1 two y ∧ y.ham.dc = some true ∧
    y.ham.ef = some (1 / 2) ∧ y.ham.osf = some (-1) := by
  obtain ⟨t, y, h1, h2, h3, -⟩ := C50_roundtrip_partial Q_prints Q_words rfl (Or.inl rfl) two_writable (fun h => by simp [two] at h)
    (o := {})
  refine ⟨t, y, h1, h2, h3, (h3.dc (by decide +kernel)).trans rfl, (h3.ef (by decide +kernel)).trans rfl,
    (h3.osf (by decide +kernel)).trans rfl⟩

/-- What happens when a Hamiltonian is written and the file is read. -/
def outcome (o : Opts) (x : Full ℚ) : Except LoadErr (List (Bond × M3 ℚ) × List (Atom × M3 ℚ) × List (AtomData ℚ)) :=
  match dumpText F o x with
  | .error e => .error (.py e)
  | .ok t =>
    match load Q t with
    | .error e => .error e
    | .ok y => .ok (y.ham.exch.map fun p => (p.1, y.ham.cell p.2), y.ham.onSite.map fun p => (p.1, y.ham.cell p.2), y.data)

/-- An atom without a spin. -/
def bare : Full ℚ := { two with spinVec := fun a => if a.index = 1 then none else some ![0, 0, 1] }

/-- A bond of an atom with itself, which is kept by `add_exchange` and is not written. -/
def alone : Full ℚ :=
  { two with ham := { two.ham with exch := [((⟨"Fe1", 1⟩, ⟨"Fe1", 1⟩, (0, 0, 0)), 0)] } }

/-- No atoms. -/
def none_ : Full ℚ := { two with ham := { two.ham with atoms := [], exch := [], onSite := [] } }

/-- The number of bonds and on-site parameters that come back, or the exception. -/
def count (o : Opts) (x : Full ℚ) : Except LoadErr (ℕ × ℕ × ℕ) := (outcome o x).map fun r => (r.1.length, r.2.1.length, r.2.2.length)

/-- Writing all parts gives the same parameters as writing the matrix. -/
example : count {} two = .ok (2, 1, 2) ∧ count { matrix := false, iso := true, dmi := true, symm := true } two = .ok (2, 1, 2) := by
  decide +kernel

/-- The bonds that come back. -/
example : (outcome {} two).map (fun r => r.1.map Prod.snd) =
    .ok [Matrix.of ![![3333 / 10000, 1, 0], ![3, -4, 5], ![0, 0, 7]], Matrix.of ![![3333 / 10000, 3, 0], ![1, -4, 0], ![0, 5, 7]]] := by
  decide +kernel

/-- Two bonds between the atoms and one of an atom with itself. -/
def third : Full ℚ := { two with ham := { two.ham with exch := two.ham.exch ++ [((⟨"Fe1", 1⟩, ⟨"Fe1", 1⟩, (0, 0, 0)), 2)] } }

/-- Of the three bonds two come back. -/
example : third.ham.exch.length = 3 ∧ count {} third = .ok (2, 1, 2) := by decide +kernel

/-- The bond of the atom with itself is lost. -/
example : ∃ text y, dumpText F {} third = .ok text ∧ load Q text = .ok y ∧
    ∀ a' ∈ y.ham.atoms, y.ham.valE (a', a', (0, 0, 0)) = none := by
  have e : third.ham.exch.filter (fun p => decide (¬ (p.1.1 = p.1.2.1 ∧ p.1.2.2 = (0, 0, 0)))) = two.ham.exch := by decide +kernel
  refine C50_self_lost Q_prints Q_words rfl (Or.inl rfl) (by rw [e]; decide +kernel) ?_ (fun h => by simp [third, two] at h)
  rw [e]
  exact two_writable

/-- An on-site matrix with an antisymmetric part and its upper triangle. -/
example : (outcome {} { two with ham := { two.ham with
      cell := fun r => if r = 2 then Matrix.of ![![1, 2, 3], ![0, 4, 5], ![0, 0, 6]] else two.ham.cell r } }).map (fun r => r.2.1.map fun p => (p.2 0 1, p.2 1 0)) =
    .ok [(2, 2)] := by decide +kernel

/-- The charge 3 of the first atom is lost. -/
example : two.charge ⟨"Fe1", 1⟩ = some 3 ∧ (outcome {} two).map (fun r => r.2.2.map fun d => (d.charge, d.gFactor)) = .ok [(0, 2), (0, 2)] := by
  decide +kernel

/-- Spin angles cannot be written, nor can parameters without notation. -/
example : count { angles := true } two = .error (.py .attributeError) ∧
    count {} { two with ham := { two.ham with ef := none } } = .error (.py .notationError) := by decide +kernel

/-- How the reading of a written file fails. -/
def failure (o : Opts) (x : Full ℚ) : Option LoadErr :=
  match dumpText F o x with
  | .error _ => none
  | .ok t =>
    match load Q t with
    | .error e => some e
    | .ok _ => none

theorem of_failure {o : Opts} {x : Full ℚ} {e : LoadErr} (h : failure o x = some e) :
    ∃ text, dumpText F o x = .ok text ∧ load Q text = .error e := by
  rw [failure] at h
  cases hd : dumpText F o x with
  | error _ => simp [hd] at h
  | ok t =>
    cases hl : load Q t with
    | ok _ => simp [hd, hl] at h
    | error _ => simp only [hd, hl, Option.some.injEq] at h; subst h; exact ⟨t, rfl, hl⟩

end DumpEx

/-- **C50**: a Hamiltonian with an atom without spin is written, the file is accepted, and reading it raises `ValueError`. -/
theorem C50_spin_false : ∃ x : Full ℚ, H5.Storable { x with spinVec := fun _ => some 0 } ∧
    ∃ text, dumpText DumpEx.F {} x = .ok text ∧ load DumpEx.Q text = .error (.py .valueError) :=
  ⟨DumpEx.bare, { DumpEx.two_storable with spins := fun _ _ => rfl }, DumpEx.of_failure (by decide +kernel)⟩

example : ∃ text, dumpText DumpEx.F {} DumpEx.bare = .ok text ∧ load DumpEx.Q text = .error (.py .valueError) :=
  C50_no_spin DumpEx.Q_prints DumpEx.Q_words (by decide +kernel) rfl (Or.inl rfl) { DumpEx.two_writable with
    kept := { DumpEx.two_storable with } } ⟨⟨"Fe1", 1⟩, by decide +kernel, rfl⟩

/-- **C50**: if the only bond is one of a site with itself the file is written and then rejected. -/
theorem C50_alone_false : ∃ x : Full ℚ, H5.Storable x ∧
    ∃ text, dumpText DumpEx.F {} x = .ok text ∧ load DumpEx.Q text = .error .rejected :=
  ⟨DumpEx.alone,
    { DumpEx.two_storable with
      inv := ⟨⟨by decide +kernel, by decide +kernel⟩, ⟨by decide +kernel, by decide +kernel⟩, fun _ => by decide +kernel⟩
      sn := fun _ => rfl
      dc := fun _ => rfl
      ef := fun _ => rfl },
    DumpEx.of_failure (by decide +kernel)⟩

/-- **C50**: a Hamiltonian without atoms is written and then rejected. -/
theorem C50_empty_false : ∃ x : Full ℚ, H5.Storable x ∧ x.ham.atoms = [] ∧
    ∃ text, dumpText DumpEx.F {} x = .ok text ∧ load DumpEx.Q text = .error .rejected :=
  ⟨DumpEx.none_,
    { inv := ⟨⟨by decide +kernel, by decide +kernel⟩, ⟨by decide +kernel, by decide +kernel⟩, fun _ => by decide +kernel⟩
      unique := by decide +kernel
      named := by decide +kernel
      plain := by decide +kernel
      spins := fun _ _ => rfl
      sn := fun _ => rfl
      dc := fun _ => rfl
      ef := fun _ => rfl
      osf := fun _ => rfl
      cone := DumpEx.two_storable.cone },
    rfl, DumpEx.of_failure (by decide +kernel)⟩

/-- **C50**: if neither the matrix nor its parts are asked for, the file is written and then rejected. -/
theorem C50_options_false : ∃ x : Full ℚ, Writable DumpEx.F DumpEx.Q x ∧
    ∃ text, dumpText DumpEx.F { matrix := false } x = .ok text ∧ load DumpEx.Q text = .error .rejected :=
  ⟨DumpEx.two, DumpEx.two_writable, DumpEx.of_failure (by decide +kernel)⟩

/-- **C50**: the full statement is false of the code: the spiral vector changes. -/
theorem C50_statement_false : ¬ C50_statement := by
  intro hS
  open DumpEx in
  obtain ⟨t, y, h1, h2, -, h4⟩ := hS _ _ one R_prints R_words R_euclid R_recip one_storable (by simp [one])
    (fun a ha => ⟨one_writable.words a ha, one_writable.letter a ha⟩) one_writable.ef one_writable.osf
  obtain ⟨t', y', g1, g2, g3⟩ := C50_spiral_false R_prints R_words R_euclid R_recip rfl (Or.inl rfl) one_writable rfl rfl (o := {})
  rw [h1] at g1
  cases g1
  rw [h2] at g2
  cases g2
  exact g3 h4

end Txt
end Magnopy
