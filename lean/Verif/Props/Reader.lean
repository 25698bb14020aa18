import Verif.Lemmas.Reader
import Verif.Props.Tb2j
import Verif.Props.TxtDump
import Verif.Props.HamNotation

/-!
# What every reader returns (C84)
-/

set_option autoImplicit false
set_option linter.unusedSectionVars false

namespace Magnopy

open PyDict

variable {K : Type} [Field K] [LinearOrder K] {L : Txt.Lib K}

/-- **C84**: a Hamiltonian which is returned by any of the readers, whatever the file contains, has its parameters under
unique keys, for atoms of the crystal, in objects of their own; with double counting every bond has its mirror; the atoms are
numbered from one. -/
theorem C84_own {s : St K} (h : FromFile L s) : s.Own := by
  cases h with
  | text h => exact (Txt.load_own h).1
  | hdf5 h =>
    obtain ⟨n, -, h⟩ := bind_ok h
    split at h
    · exact (H5.loadGroup_own h).1
    · cases h
  | tb2j h => exact (Tb2j.load_own h).1

/-- **C84**: the spin of an atom is the length of the vector in the file; files of TB2J give no spins. -/
theorem C84_spins : (∀ {lines : List Str} {y : Txt.Loaded K}, Txt.load L lines = .ok y →
      ∀ a, y.ham.spin a = (Txt.dataOf y.data a).map fun d => L.norm d.spin) ∧
    (∀ {name : Option Str} {f : H5.File K} {y : H5.Full K}, H5.load L name f = .ok y → ∀ a, y.ham.spin a = (y.spinVec a).map L.norm) ∧
    ∀ {lines : List Str} {y : H5.Full K}, Tb2j.load L lines = .ok y → ∀ a, y.ham.spin a = none ∧ y.spinVec a = none := by
  refine ⟨fun h => (Txt.load_own h).2.1, fun h => ?_, fun {_ y} h a => ?_⟩
  · obtain ⟨n, -, h⟩ := bind_ok h
    split at h
    · exact (H5.loadGroup_own h).2.1
    · cases h
  · have hn : y.spinVec a = none := by
      unfold Tb2j.load at h
      split at h
      · cases h
      · split at h
        · cases h
        · split at h
          · cases h
          · cases h; rfl
    refine ⟨?_, hn⟩
    rw [(Tb2j.load_own h).2.1 a, hn]
    rfl

/-- **C84**: the distance of the atoms of a bond, which `filtered` compares with its limits, is that in the crystal of the file. -/
theorem C84_distances : (∀ {lines : List Str} {y : Txt.Loaded K}, Txt.load L lines = .ok y →
      ∀ b, y.ham.dist b = bondLength L.norm y.cell (fun a => ((Txt.dataOf y.data a).map Txt.AtomData.pos).getD 0) b) ∧
    (∀ {name : Option Str} {f : H5.File K} {y : H5.Full K}, H5.load L name f = .ok y → ∀ b, y.ham.dist b = bondLength L.norm y.cell y.pos b) ∧
    ∀ {lines : List Str} {y : H5.Full K}, Tb2j.load L lines = .ok y → ∀ b, y.ham.dist b = bondLength L.norm y.cell y.pos b := by
  refine ⟨fun h => (Txt.load_own h).2.2, fun h => ?_, fun h => (Tb2j.load_own h).2.2⟩
  obtain ⟨n, -, h⟩ := bind_ok h
  split at h
  · exact (H5.loadGroup_own h).2.2
  · cases h

/-- **C84**, consequence: another exchange factor or on-site factor multiplies every parameter of a Hamiltonian from a file
exactly once. -/
theorem C84_rescaled [IsStrictOrderedRing K] {s : St K} (h : FromFile L s) :
    (∀ c c', s.ef = some c → c' ≠ 0 → ∃ t, s.setEF c' = .ok t ∧ (∀ b, t.valE b = (s.valE b).map fun J => (c / c') • J) ∧
      ∀ a, t.valO a = s.valO a) ∧
    ∀ c c', s.osf = some c → c' ≠ 0 → ∃ t, s.setOF c' = .ok t ∧ (∀ b, t.valE b = s.valE b) ∧
      ∀ a, t.valO a = (s.valO a).map fun J => (c / c') • J := by
  have ho := C84_own h
  refine ⟨fun c c' hc h0 => ?_, fun c c' hc h0 => ?_⟩
  · obtain ⟨t, ht, hsc, _⟩ := St.setEF_scaled ho.inv.nodup ho.noShare h0
    refine ⟨t, ht, fun b => ?_, fun a => ?_⟩
    · rw [hsc.valE, hc]; rfl
    · rw [hsc.valO]; simp
  · obtain ⟨t, ht, hsc, _⟩ := St.setOF_scaled ho.inv.nodup ho.noShare h0
    refine ⟨t, ht, fun b => ?_, fun a => ?_⟩
    · rw [hsc.valE]; simp
    · rw [hsc.valO, hc]; rfl

/-- Two atoms have different numbers. -/
theorem St.Own.index_inj {s : St K} (h : s.Own) : ∀ a ∈ s.atoms, ∀ b ∈ s.atoms, a.index = b.index → a = b := by
  intro a ha b hb e
  obtain ⟨i, hi⟩ := List.mem_iff_getElem?.1 ha
  obtain ⟨j, hj⟩ := List.mem_iff_getElem?.1 hb
  have : i = j := by have h1 := h.index i a hi; have h2 := h.index j b hj; omega
  rw [this, hj] at hi
  exact (Option.some.inj hi).symm

/-- **C84**, consequence: with double counting, a Hamiltonian from a file can be converted to counting once and back. Then a bond is there
if and only if it was there and does not join an atom with itself. Of each pair of opposite bonds one has kept its matrix, and the other
one has the transposed one. -/
theorem C84_double_counting [IsStrictOrderedRing K] {s : St K} (h : FromFile L s) (hd : s.dc = some true) :
    ∃ t u, s.setDC false = .ok t ∧ t.setDC true = .ok u ∧
      (∀ b, b ∈ u.exch.keys ↔ b ∈ s.exch.keys ∧ b.mirror ≠ b) ∧
      ∀ b, b.mirror ≠ b → (u.valE b = s.valE b ∧ u.valE b.mirror = (s.valE b).map Param.T) ∨
        (u.valE b = (s.valE b.mirror).map Param.T ∧ u.valE b.mirror = s.valE b.mirror) := by
  have ho := C84_own h
  have hkm : ∀ b ∈ s.exch.keys, b.mirror ≠ b → St.keeps b.mirror = !St.keeps b := fun b hb hn =>
    keeps_mirror hn (ho.index_inj _ (ho.inv.refer.exch b hb).1 _ (ho.inv.refer.exch b hb).2)
  have hc := ho.inv.closed hd
  have hc' : ∀ b, b.mirror ∈ s.exch.keys → b ∈ s.exch.keys := fun b hb => Bond.mirror_mirror b ▸ hc _ hb
  obtain ⟨t, h1, hth, hk, hr, ha, hs, -, hv, -⟩ := St.setDC_ok ho.inv.nodup ho.inv.refer ho.alloc ho.noShare false fun _ b hb _ => hc b hb
  obtain ⟨u, h2, -, -, -, -, -, -, hv2, -⟩ := St.setDC_ok hk hr ha hs true fun e => by cases e
  have hdt : t.dc = some false := (congrArg Ham.dc hth :)
  rw [hd] at hv
  rw [hdt] at hv2
  have hself : ∀ b : Bond, b.mirror = b → St.keeps b = true := by
    rintro ⟨x, y, i, j, k⟩ hb
    simp only [Bond.mirror, Prod.mk.injEq] at hb
    obtain ⟨rfl, -, h1, h2, h3⟩ := hb
    have : i = 0 := by omega
    have : j = 0 := by omega
    have : k = 0 := by omega
    subst i j k
    simp [St.keeps]
  have none_of : ∀ b, b ∉ s.exch.keys → s.valE b = none := fun b hb => by
    rw [← Option.not_isSome_iff_eq_none, St.isSome_valE_iff]
    exact hb
  have htself : ∀ b : Bond, b.mirror = b → t.valE b = none := by
    intro b hb
    rw [hv, St.dcMap]
    simp only [Bool.false_eq_true, if_false, hb, hself b hb]
    by_cases hbs : b ∈ s.exch.keys
    · rw [if_pos (Or.inr ⟨(St.isSome_valE_iff).2 hbs, trivial⟩)]
    · rw [none_of b hbs]
      split_ifs <;> rfl
  have htkeep : ∀ b : Bond, b.mirror ≠ b → St.keeps b = true → t.valE b = (s.valE b).map fun m => (St.dcFactor (some true) false : K) • m := by
    intro b hb hkb
    rw [hv, St.dcMap]
    simp only [Bool.false_eq_true, if_false]
    by_cases hbs : b ∈ s.exch.keys
    · rw [if_neg]
      simp [hkb, hkm b hbs hb]
    · rw [none_of b hbs]
      split_ifs <;> rfl
  have htdrop : ∀ b : Bond, St.keeps b = false → t.valE b = none := by
    intro b hkb
    rw [hv, St.dcMap]
    simp [hkb]
  have two : ∀ m : M3 K, (St.dcFactor (some false) true : K) • (St.dcFactor (some true) false : K) • m = m := fun m => by
    rw [smul_smul]
    simp [St.dcFactor]
  have twoT : ∀ m : M3 K, (St.dcFactor (some false) true : K) • ((St.dcFactor (some true) false : K) • m).transpose = m.transpose := fun m => by
    rw [Matrix.transpose_smul, two]
  have pair : ∀ b : Bond, b.mirror ≠ b → St.keeps b = true → St.keeps b.mirror = false →
      u.valE b = s.valE b ∧ u.valE b.mirror = (s.valE b).map Param.T := by
    intro b hb k1 k2
    constructor
    · rw [hv2, St.dcMap, if_pos rfl, htdrop _ k2, htkeep b hb k1]
      simp only [Option.map_none, Option.none_or, Option.map_map]
      cases s.valE b with
      | none => rfl
      | some m => simp [Function.comp_def, two]
    · rw [hv2, St.dcMap, if_pos rfl, Bond.mirror_mirror, htdrop _ k2, htkeep b hb k1]
      simp only [Option.map_none, Option.or_none, Option.map_map]
      cases s.valE b with
      | none => rfl
      | some m => simp [Function.comp_def, two, Param.T]
  have values : ∀ b : Bond, b.mirror ≠ b → (u.valE b = s.valE b ∧ u.valE b.mirror = (s.valE b).map Param.T) ∨
        (u.valE b = (s.valE b.mirror).map Param.T ∧ u.valE b.mirror = s.valE b.mirror) := by
    intro b hb
    by_cases hbs : b ∈ s.exch.keys
    · have hm := hkm b hbs hb
      cases hkb : St.keeps b with
      | true => exact Or.inl (pair b hb hkb (by rw [hm, hkb]; rfl))
      | false =>
        have hb' : b.mirror.mirror ≠ b.mirror := by rwa [Bond.mirror_mirror, ne_comm]
        have := pair b.mirror hb' (by rw [hm, hkb]; rfl) (by rwa [Bond.mirror_mirror])
        rw [Bond.mirror_mirror] at this
        exact Or.inr this.symm
    · have n1 := none_of b hbs
      have n2 := none_of b.mirror fun hh => hbs (hc' b hh)
      have m1 : ∀ c : Bond, s.valE c = none → t.valE c = none := fun c hc => by
        rw [hv, St.dcMap]
        simp [hc]
      refine Or.inl ⟨?_, ?_⟩
      · rw [hv2, St.dcMap, if_pos rfl, m1 _ n1, m1 _ n2, n1]
        rfl
      · rw [hv2, St.dcMap, if_pos rfl, Bond.mirror_mirror, m1 _ n1, m1 _ n2, n1]
        rfl
  refine ⟨t, u, h1, h2, fun b => ?_, values⟩
  rw [← St.isSome_valE_iff, ← St.isSome_valE_iff]
  by_cases hb : b.mirror = b
  · rw [hv2, St.dcMap, if_pos rfl, hb, htself b hb]
    simp
  · have hcc : (s.valE b.mirror).isSome ↔ (s.valE b).isSome := by
      rw [St.isSome_valE_iff, St.isSome_valE_iff]
      exact ⟨hc' b, hc b⟩
    rcases values b hb with ⟨e, -⟩ | ⟨e, -⟩
    · rw [e]
      simp [hb]
    · rw [e, Option.isSome_map, hcc]
      simp [hb]

namespace ReaderExample

open H5.Ex in
/-- A Hamiltonian from an HDF5 file. -/
example : ∃ s : St ℚ, FromFile H5.Ex.L s ∧ s.ef = some (1 / 2) ∧ ∃ a b : Atom, a.index = 1 ∧ b.index = 2 ∧
    s.valE (a, b, (1, 0, 0)) = some (Matrix.of ![![0, 1, 0], ![3, 4, 5], ![0, 0, 7]]) ∧ s.dist (a, b, (1, 0, 0)) = H5.Ex.L.norm ![4, 0, 0] ∧
    ∃ t, s.setEF 1 = .ok t ∧ t.valE (a, b, (1, 0, 0)) = some (Matrix.of ![![0, 1 / 2, 0], ![3 / 2, 2, 5 / 2], ![0, 0, 7 / 2]]) := by
  obtain ⟨y, _, h2, h3, h4, _⟩ := H5.C51_roundtrip_partial unit two_storable (f := []) (name := Str.lit "spinham") (ow := false)
    (Or.inl rfl)
  have hx : FromFile H5.Ex.L y.ham := .hdf5 h2
  have hnames : y.ham.atoms.map Atom.name = ["Aa", "Ab"] := (h4.2 (by decide)).trans (by decide +kernel)
  have hlen : y.ham.atoms.length = 2 := by rw [← List.length_map (f := Atom.name), hnames]; rfl
  have hi := (C84_own hx).index
  have ha : y.ham.atoms[0]? = some y.ham.atoms[0] := List.getElem?_eq_getElem _
  have hb : y.ham.atoms[1]? = some y.ham.atoms[1] := List.getElem?_eq_getElem _
  have hna : y.ham.atoms[0].name = "Aa" := by
    have := congrArg (fun l => l[0]?) hnames
    simpa [ha] using this
  have hnb : y.ham.atoms[1].name = "Ab" := by
    have := congrArg (fun l => l[1]?) hnames
    simpa [hb] using this
  have hv := h3.exchange (A 0) (by decide +kernel) (A 1) (by decide +kernel) _ (List.getElem_mem (n := 0) (by omega)) _
    (List.getElem_mem (n := 1) (by omega)) (hna.trans (by decide +kernel)) (hnb.trans (by decide +kernel)) (1, 0, 0)
  have hv' : two.ham.valE (A 0, A 1, (1, 0, 0)) = some (Matrix.of ![![0, 1, 0], ![3, 4, 5], ![0, 0, 7]]) := by decide +kernel
  rw [hv'] at hv
  have hef : y.ham.ef = some (1 / 2) := (h3.ef (by decide)).trans rfl
  obtain ⟨t, ht, hE, -⟩ := (C84_rescaled hx).1 _ 1 hef one_ne_zero
  have hpa := h3.pos (A 0) (by decide +kernel) _ (List.getElem_mem (n := 0) (by omega)) (hna.trans (by decide +kernel))
  have hpb := h3.pos (A 1) (by decide +kernel) _ (List.getElem_mem (n := 1) (by omega)) (hnb.trans (by decide +kernel))
  refine ⟨y.ham, hx, hef, _, _, hi 0 _ ha, hi 1 _ hb, hv, ?_, t, ht, ?_⟩
  · rw [C84_distances.2.1 h2, bondLength, h3.cell]
    simp only [hpa, hpb]
    congr 1
    decide +kernel
  rw [hE, hv]
  decide +kernel

/-- A Hamiltonian from a text file and one from TB2J. -/
example : (∃ s : St ℚ, FromFile Txt.DumpEx.Q s ∧ s.Own ∧ s.dc = some true ∧ s.ef = some (1 / 2) ∧
      ∃ t u, s.setDC false = .ok t ∧ t.setDC true = .ok u ∧ ∀ b, b ∈ u.exch.keys ↔ b ∈ s.exch.keys ∧ b.mirror ≠ b) ∧
    ∃ s : St ℚ, FromFile Tb2j.Ex.Q s ∧ s.Own ∧ ∃ b, (s.valE b).map (fun m => m 0 1) = some 5 := by
  constructor
  · obtain ⟨t, y, h1, h2, h3, -⟩ := Txt.C50_roundtrip_partial Txt.DumpEx.Q_prints Txt.DumpEx.Q_words rfl (Or.inl rfl)
      Txt.DumpEx.two_writable (fun h => by simp [Txt.DumpEx.two] at h) (o := {})
    have hd : y.ham.dc = some true := (h3.dc (by decide +kernel)).trans rfl
    obtain ⟨t', u, g1, g2, g3, -⟩ := C84_double_counting (.text h2) hd
    exact ⟨y.ham, .text h2, C84_own (.text h2), hd, (h3.ef (by decide +kernel)).trans rfl, t', u, g1, g2, g3⟩
  · have hc : Tb2j.Consistent [Tb2j.Ex.e1] := by
      intro e he e' he'
      rw [List.mem_singleton] at he he'
      subst he he'
      exact ⟨fun _ => rfl, fun h => absurd h (by decide +kernel)⟩
    obtain ⟨f, h1, h2⟩ := Tb2j.C66_both Tb2j.Ex.top_ok Tb2j.Ex.mid_ok Tb2j.Ex.one_ok Tb2j.Ex.det_ok Tb2j.Ex.names_ok (by decide +kernel) hc
    obtain ⟨A, hA, B, hB, a1, a2, a3, a4⟩ := h2 Tb2j.Ex.e1 (by simp)
    refine ⟨f.ham, .tb2j h1, C84_own (.tb2j h1), (A, B, (1, 0, 0)), ?_⟩
    have : f.ham.valE (A, B, (1, 0, 0)) = _ := a3
    rw [this]
    decide +kernel

end ReaderExample

end Magnopy
