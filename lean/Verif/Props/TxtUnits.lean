import Verif.Spec.TxtUnits
import Verif.Props.TxtCell
import Verif.Lemmas.TxtSections
import Mathlib.Algebra.CharZero.Defs

/-!
# Property C47: units in a model file
-/

set_option autoImplicit false
set_option linter.unusedSectionVars false

namespace Magnopy

open Txt

namespace Str

theorem isSpace_toLower (c : Char) : isSpace c.toLower = isSpace c := by
  by_cases h : c.val ≥ 'A'.val ∧ c.val ≤ 'Z'.val
  · have h1 : 65 ≤ c.toNat := by have := h.1; exact this
    have h2 : c.toNat ≤ 90 := by have := h.2; exact this
    have key : ∀ n : Fin 26, isSpace (Char.ofNat (65 + n)).toLower = isSpace (Char.ofNat (65 + n)) := by decide +kernel
    have := key ⟨c.toNat - 65, by omega⟩
    simp only [show 65 + (c.toNat - 65) = c.toNat by omega, Char.ofNat_toNat] at this
    exact this
  · rw [Char.toLower, dif_neg h]

theorem split_lower (s : Str) : (lower s).split = (split s).map lower := by
  induction s with
  | nil => rfl
  | cons c s ih =>
    rw [show lower (c :: s) = c.toLower :: lower s from rfl, split.eq_def, split.eq_def (c :: s)]
    simp only [isSpace_toLower]
    by_cases h : isSpace c = true
    · simp [h, ih]
    · simp only [h, if_false, Bool.false_eq_true]
      cases s with
      | nil => rfl
      | cons d t =>
        rw [show lower (d :: t) = d.toLower :: lower t from rfl] at ih ⊢
        simp only [isSpace_toLower]
        by_cases hd : isSpace d = true
        · simp only [hd, if_true, ih]
          rfl
        · simp only [hd, if_false, Bool.false_eq_true, ih]
          cases (split (d :: t)) <;> rfl

end Str

section
variable {K : Type} [Field K] [CharZero K]

theorem energyName_unit {line : Str} {u : EnergyUnit} (h : HeaderUnit line u) : ∃ t, energyName line = u.letter :: t := by
  rcases h with ⟨w, v, t, more, h1, h2⟩ | ⟨⟨w, h1⟩, rfl⟩
  · refine ⟨t, ?_⟩
    rw [energyName, Str.split_lower, h1]
    exact h2
  · refine ⟨Str.lit "eV", ?_⟩
    rw [energyName, Str.split_lower, h1]
    rfl

theorem onSiteFactor_unit (u : EnergyUnit) (t : Str) : onSiteFactor (K := K) (u.letter :: t) = .ok u.inMeV := by
  have c : ∀ a b : Char, (a == b) = decide (a = b) := fun _ _ => rfl
  cases u <;>
  · simp only [onSiteFactor, Str.startsWith, EnergyUnit.letter, List.isPrefixOf, EnergyUnit.inMeV, rydberg, energyUnit,
      electronVolt, kBoltzmann, c]
    simp (decide := true) only [decide_true, decide_false, Bool.true_and, Bool.false_and, if_true, if_false]
    try norm_num

theorem floats_scaled {L : Lib K} {c : K} {ws ws' : List Str} (h : Scaled L c ws ws') :
    ∃ xs, xs.length = ws.length ∧ floats L ws = .ok xs ∧ floats L ws' = .ok (xs.map fun x => c * x) := by
  induction h with
  | nil => exact ⟨[], rfl, rfl, rfl⟩
  | cons h _ ih =>
    obtain ⟨x, h1, h2⟩ := h
    obtain ⟨xs, h3, h4, h5⟩ := ih
    refine ⟨x :: xs, by simp [h3], ?_, ?_⟩
    · rw [floats, parse, h1, h4]
    · rw [floats, parse, h2, h5]; rfl

theorem siteMatrix_scaled {L : Lib K} {a b c : K} (h : c * a = b) {ws ws' : List Str} (hl : ws.length = 6)
    (hs : Scaled L c ws ws') : siteMatrix L b ws = siteMatrix L a ws' := by
  obtain ⟨xs, h1, h2, h3⟩ := floats_scaled hs
  have hl' : ws'.length = 6 := by rw [← hl]; exact (List.Forall₂.length_eq hs).symm
  rw [hl] at h1
  match ws, hl with
  | [a1, a2, a3, a4, a5, a6], _ =>
  match ws', hl' with
  | [b1, b2, b3, b4, b5, b6], _ =>
  match xs, h1 with
  | [x1, x2, x3, x4, x5, x6], _ =>
    simp only [siteMatrix, h2, h3, List.map_cons, List.map_nil]
    congr 1
    ext i j
    rw [← h]
    fin_cases i <;> fin_cases j <;> simp [mul_comm, mul_left_comm]

theorem siteLines_scaled {L : Lib K} {a b c : K} (h : c * a = b) {ls ls' : List Str} (hs : SitesScaled L c ls ls') (s : St K) :
    siteLines L b ls s = siteLines L a ls' s := by
  induction hs generalizing s with
  | nil => rfl
  | sep h1 _ ih =>
    rw [siteLines, siteLines, if_pos (isLong_iff.2 h1), if_pos (isLong_iff.2 h1), ih]
  | site h1 h2 h3 _ ih =>
    have h1' : ¬ (isLong '-' _ = true) := fun h => h1 (isLong_iff.1 h)
    rw [siteLines, if_neg h1', siteLines, if_neg h1']
    simp only [siteMatrix_scaled h h2 h3, show siteLines L b _ = siteLines L a _ from funext ih]

/-- **C47, on-site (part of C47).** An on-site section in any of the five units gives the same Hamiltonian as the section in
meV with all values converted. -/
theorem C47_on_site_partial {L : Lib K} {h h' : Str} {u : EnergyUnit} (hu : HeaderUnit h u)
    (hm : HeaderUnit h' .milliElectronVolt) {ls ls' : List Str} (hs : SitesScaled L u.inMeV ls ls') (s : St K) :
    readOnSite L (h :: ls) s = readOnSite L (h' :: ls') s := by
  obtain ⟨t, ht⟩ := energyName_unit hu
  obtain ⟨t', ht'⟩ := energyName_unit hm
  simp only [readOnSite, List.headD_cons, List.tail_cons, ht, ht', onSiteFactor_unit, bind, Except.bind]
  exact siteLines_scaled (by simp [EnergyUnit.inMeV]) hs s

/-- **C47, exchange: units are ignored.** With any unit other than Joule the section is read as if it were in meV. -/
theorem C47_exchange_ignored (L : Lib K) {h h' : Str} {u u' : EnergyUnit} (hu : HeaderUnit h u) (hu' : HeaderUnit h' u')
    (h1 : u ≠ .joule) (h2 : u' ≠ .joule) (ls : List Str) (s : St K) :
    readExchange L (h :: ls) s = readExchange L (h' :: ls) s := by
  obtain ⟨t, ht⟩ := energyName_unit hu
  obtain ⟨t', ht'⟩ := energyName_unit hu'
  have f : ∀ (v : EnergyUnit) (r : Str), v ≠ .joule → ∃ c : K, exchangeFactor (v.letter :: r) = .ok c := by
    intro v r hv
    cases v <;> simp_all [exchangeFactor, Str.startsWith, EnergyUnit.letter, List.isPrefixOf]
  obtain ⟨c, hc⟩ := f u t h1
  obtain ⟨c', hc'⟩ := f u' t' h2
  simp only [readExchange, List.headD_cons, List.tail_cons, ht, ht', hc, hc', bind, Except.bind]

/-- **C47, exchange: Joule.** A section in Joule cannot be read at all. -/
theorem C47_exchange_joule (L : Lib K) {h : Str} (hu : HeaderUnit h .joule) (ls : List Str) (s : St K) :
    readExchange L (h :: ls) s = .error .nameError := by
  obtain ⟨t, ht⟩ := energyName_unit hu
  simp only [readExchange, List.headD_cons, List.tail_cons, ht, bind, Except.bind]
  simp [exchangeFactor, Str.startsWith, EnergyUnit.letter, List.isPrefixOf]

theorem column_other {L : Lib K} {c : K} {hdr : List Str} {l l' : Str} (h : AtomScaled L c hdr l l') {k : Str}
    (hk : ¬ (k = ['x'] ∨ k = ['y'] ∨ k = ['z'])) : column L hdr l.split k = column L hdr l'.split k := by
  unfold column
  cases hi : hdr.idxOf? k with
  | none => rfl
  | some i =>
    have : hdr[i]? = some k := by
      obtain ⟨h1, h2⟩ := List.findIdx?_eq_some_iff_findIdx_eq.1 hi
      rw [List.getElem?_eq_getElem h1]
      have := List.findIdx_getElem (w := h2 ▸ h1) (xs := hdr) (p := (· == k))
      simpa [h2] using this
    simp only [word, h.other i k this hk]

theorem column_coord {L : Lib K} {c : K} {hdr : List Str} {l l' : Str} (h : AtomScaled L c hdr l l') {k : Str}
    (hk : k = ['x'] ∨ k = ['y'] ∨ k = ['z']) :
    column L hdr l'.split k = (column L hdr l.split k).map fun x => c * x := by
  unfold column
  cases hi : hdr.idxOf? k with
  | none => rfl
  | some i =>
    have : hdr[i]? = some k := by
      obtain ⟨h1, h2⟩ := List.findIdx?_eq_some_iff_findIdx_eq.1 hi
      rw [List.getElem?_eq_getElem h1]
      have := List.findIdx_getElem (w := h2 ▸ h1) (xs := hdr) (p := (· == k))
      simpa [h2] using this
    simp only [word]
    cases hw : l.split[i]? with
    | none =>
      have : l'.split[i]? = none := by
        rw [List.getElem?_eq_none_iff] at hw ⊢
        rw [← h.length]; exact hw
      rw [this]; rfl
    | some w =>
      have hlt : i < l'.split.length := by
        rw [← h.length]
        exact (List.getElem?_eq_some_iff.1 hw).1
      obtain ⟨x, h1, h2⟩ := h.coord i k this hk w _ hw (List.getElem?_eq_getElem hlt)
      rw [List.getElem?_eq_getElem hlt]
      simp only [Except.bind, parse, h1, h2, Except.map]

theorem readAtom_scaled [DecidableEq K] {L : Lib K} {c : K} {hdr : List Str} {l l' : Str} (h : AtomScaled L c hdr l l')
    (cell : M3 K) (scale : V3 K) : readAtom L cell c scale hdr l = readAtom L cell 1 scale hdr l' := by
  have o : ∀ s : String, s.toList ≠ ['x'] → s.toList ≠ ['y'] → s.toList ≠ ['z'] →
      column L hdr l.split (Str.lit s) = column L hdr l'.split (Str.lit s) := by
    intro s h1 h2 h3
    exact column_other h (by simp [Str.lit, h1, h2, h3])
  have hn : atomName hdr l.split = atomName hdr l'.split := by
    unfold atomName
    cases hi : hdr.idxOf? (Str.lit "name") with
    | none => rfl
    | some i =>
      have : hdr[i]? = some (Str.lit "name") := by
        obtain ⟨h1, h2⟩ := List.findIdx?_eq_some_iff_findIdx_eq.1 hi
        rw [List.getElem?_eq_getElem h1]
        have := List.findIdx_getElem (w := h2 ▸ h1) (xs := hdr) (p := (· == Str.lit "name"))
        simpa [h2] using this
      simp only [word, h.other i _ this (by decide)]
  have hsp : readSpin L hdr l.split = readSpin L hdr l'.split := by
    unfold readSpin column3
    rw [o "sx" (by decide) (by decide) (by decide), o "sy" (by decide) (by decide) (by decide),
      o "sz" (by decide) (by decide) (by decide), o "sp" (by decide) (by decide) (by decide),
      o "st" (by decide) (by decide) (by decide), o "s" (by decide) (by decide) (by decide)]
  have hq : column L hdr l.split ['q'] = column L hdr l'.split ['q'] := column_other h (by decide)
  have hg : column L hdr l.split ['g'] = column L hdr l'.split ['g'] := column_other h (by decide)
  have hq' : columnOr L hdr l.split ['q'] 0 = columnOr L hdr l'.split ['q'] 0 := by rw [columnOr, columnOr, hq]
  have hg' : columnOr L hdr l.split ['g'] 2 = columnOr L hdr l'.split ['g'] 2 := by rw [columnOr, columnOr, hg]
  unfold readAtom
  rw [hn, hq', hg', hsp]
  by_cases hr : Str.mem (Str.lit "r1") hdr = true
  · have : atomCoords L hdr l.split = atomCoords L hdr l'.split := by
      rw [atomCoords, atomCoords, if_pos hr, if_pos hr]
      unfold column3
      rw [o "r1" (by decide) (by decide) (by decide), o "r2" (by decide) (by decide) (by decide),
        o "r3" (by decide) (by decide) (by decide)]
    have e : atomPos cell c scale hdr = atomPos cell 1 scale hdr := by
      funext p
      rw [atomPos, atomPos, if_pos hr, if_pos hr]
    rw [this, e]
  · have hc : atomCoords L hdr l'.split = (atomCoords L hdr l.split).map fun v i => c * v i := by
      rw [atomCoords, atomCoords, if_neg hr, if_neg hr]
      unfold column3
      rw [column_coord h (k := ['x']) (by simp), column_coord h (k := ['y']) (by simp), column_coord h (k := ['z']) (by simp)]
      cases column L hdr l.split ['x'] with
      | error e => rfl
      | ok x =>
        cases column L hdr l.split ['y'] with
        | error e => rfl
        | ok y =>
          cases column L hdr l.split ['z'] with
          | error e => rfl
          | ok z =>
            simp only [bind, Except.bind, Except.map]
            congr 1
            funext i
            fin_cases i <;> rfl
    have e : ∀ p, atomPos cell 1 scale hdr (fun i => c * p i) = atomPos cell c scale hdr p := by
      intro p
      rw [atomPos, atomPos, if_neg hr, if_neg hr]
      congr 1
      funext i
      ring
    rw [hc]
    cases atomName hdr l'.split with
    | error e => rfl
    | ok name =>
      cases atomCoords L hdr l.split with
      | error e => rfl
      | ok v =>
        simp only [bind, Except.bind, Except.map, e]

/-- **C47, atoms (part of C47).** Absolute coordinates in Bohr give the same atoms as the coordinates converted to
Angstrom. -/
theorem C47_atoms_partial [LinearOrder K] [IsStrictOrderedRing K] {L : Lib K} {h h' hdr : Str} {w w' v v' t t' : Str}
    (h1 : h.split = [w, v]) (h2 : v.lower = 'b' :: t) (h1' : h'.split = [w', v']) (h2' : v'.lower = 'a' :: t')
    {ls ls' : List Str} (hs : List.Forall₂ (AtomScaled L (529177210903 / 10 ^ 12) hdr.lower.split) ls ls')
    (cell : M3 K) (scale : V3 K) :
    readAtoms L cell scale (h :: hdr :: ls) = readAtoms L cell scale (h' :: hdr :: ls') := by
  have e : readAtomLines L cell (529177210903 / 10 ^ 12) scale hdr.lower.split ls =
      readAtomLines L cell 1 scale hdr.lower.split ls' := by
    induction hs with
    | nil => rfl
    | cons h _ ih => rw [readAtomLines, readAtomLines, readAtom_scaled h, ih]
  unfold readAtoms atomFactor atomUnits
  simp only [List.headD_cons, Str.split_lower, h1, h1', List.map_cons, List.map_nil, h2, h2', lengthFactor_a, lengthFactor_b]
  rw [Str.split_lower] at e
  simpa [Str.startsWith, List.isPrefixOf, bind, Except.bind] using e

/-- **C47, cell (part of C47).** Two cell sections whose rows mean the same lengths (`CellRows`: Bohr is
0.529177210903 Angstrom) and have the same scale give the same cell. -/
theorem C47_cell_partial [LinearOrder K] [IsStrictOrderedRing K] {L : Lib K} {ls ls' : List Str} {base : M3 K}
    (h : CellRows L ls base) (h' : CellRows L ls' base) (hn : ls.length = 4 ∨ ls.length = 5)
    (hl : ls.length = ls'.length) (hs : ls.length = 5 → (ls.getD 1 []).split = (ls'.getD 1 []).split) :
    readCell L ls = readCell L ls' := by
  rw [readCell_eq h hn, readCell_eq h' (hl ▸ hn), ← hl]
  by_cases h5 : ls.length = 5
  · rw [if_pos h5, if_pos h5, hs h5]
  · rw [if_neg h5, if_neg h5]

end

namespace TxtExample

/-- One iron atom. -/
def iron : St ℚ := mkHam lib 1 [⟨Str.lit "Fe", 0, ![0, 0, 1], 0, 2⟩]

/-- The isotropic exchange of 1 eV in the units of the file. -/
def bond (x : String) : List Str := [Str.lit "Fe Fe 1 0 0", Str.lit ("Isotropic " ++ x)]

/-- The value at the bond. -/
def valueXX (r : Except PyErr (St ℚ)) : Option ℚ :=
  r.toOption.bind fun s => (s.valE (⟨"Fe", 1⟩, ⟨"Fe", 1⟩, (1, 0, 0))).map fun m => m 0 0

end TxtExample

/-- **C47 is false for exchange.** 1 eV is not read as 1000 meV. -/
theorem C47_exchange_false : ∃ (L : Lib ℚ) (h h' : Str) (ls ls' : List Str) (s : St ℚ), HeaderUnit h .electronVolt ∧
    HeaderUnit h' .milliElectronVolt ∧ ls.head? = ls'.head? ∧
    Scaled L EnergyUnit.electronVolt.inMeV ((ls.getD 1 []).split.drop 1) ((ls'.getD 1 []).split.drop 1) ∧
    TxtExample.valueXX (readExchange L (h :: ls) s) = some 1 ∧
    TxtExample.valueXX (readExchange L (h' :: ls') s) = some 1000 := by
  refine ⟨TxtExample.lib, Str.lit "Exchange eV", Str.lit "Exchange meV", TxtExample.bond "1", TxtExample.bond "1000",
    TxtExample.iron, Or.inl ⟨Str.lit "Exchange", Str.lit "eV", ['v'], [], by decide +kernel, by decide +kernel⟩,
    Or.inl ⟨Str.lit "Exchange", Str.lit "meV", Str.lit "ev", [], by decide +kernel, by decide +kernel⟩, rfl, ?_, ?_, ?_⟩
  · have e1 : ((TxtExample.bond "1").getD 1 []).split.drop 1 = [['1']] := by decide +kernel
    have e2 : ((TxtExample.bond "1000").getD 1 []).split.drop 1 = [Str.lit "1000"] := by decide +kernel
    rw [e1, e2]
    exact .cons ⟨1, by decide +kernel, by decide +kernel⟩ .nil
  · decide +kernel
  · decide +kernel

/-- The hypotheses of the on-site theorem: values in eV and in meV. -/
example : SitesScaled TxtExample.lib (EnergyUnit.electronVolt.inMeV)
    (["----------", "Fe", "1 0 0 0 0 2"].map Str.lit) (["----------", "Fe", "1000 0 0 0 0 2000"].map Str.lit) := by
  refine .sep ⟨[], by decide +kernel⟩ (.site (fun ⟨t, h⟩ => absurd h ?_) (by decide +kernel) ?_ .nil)
  · simp [Str.lit]
  · have e1 : (Str.lit "1 0 0 0 0 2").split = [['1'], ['0'], ['0'], ['0'], ['0'], ['2']] := by decide +kernel
    have e2 : (Str.lit "1000 0 0 0 0 2000").split = [Str.lit "1000", ['0'], ['0'], ['0'], ['0'], Str.lit "2000"] := by
      decide +kernel
    rw [e1, e2]
    refine .cons ⟨1, by decide +kernel, by decide +kernel⟩ (.cons ⟨0, by decide +kernel, by decide +kernel⟩
      (.cons ⟨0, by decide +kernel, by decide +kernel⟩ (.cons ⟨0, by decide +kernel, by decide +kernel⟩
      (.cons ⟨0, by decide +kernel, by decide +kernel⟩ (.cons ⟨2, by decide +kernel, by decide +kernel⟩ .nil)))))

end Magnopy
