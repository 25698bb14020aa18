import Verif.Lemmas.HamHist
import Mathlib.Tactic.NormNum

/-!
# Properties C09, C10, C19: invariants of every history of public calls

A user program is a list of operations (`Op`) run on a new Hamiltonian over a crystal with arbitrary
atoms; operations that raise leave whatever state they leave and the program goes on.
-/

set_option autoImplicit false

set_option linter.unusedSectionVars false

namespace Magnopy

variable {K : Type*} [Field K] [LinearOrder K]

/-- **C09.** After any history, with `double_counting == True`, `(x, y, R) in ham` iff
`(y, x, -R) in ham`; `x` and `y` are atoms or names. -/
theorem C09_mirror_present (m : Mem K) (atoms : List Atom) (spin : Atom → Option K) (dist : Bond → K)
    (ops : List (Op K)) (hdc : (runOps ops (St.empty m atoms spin dist)).dc = some true)
    (x y : AtomArg) (R : Cell) :
    (runOps ops (St.empty m atoms spin dist)).contains (.bond x y R) = .ok true ↔
      (runOps ops (St.empty m atoms spin dist)).contains (.bond y x (-R)) = .ok true := by
  have h := (runOps_inv ops _ (St.inv_empty m atoms spin dist)).closed hdc
  generalize runOps ops (St.empty m atoms spin dist) = s at h
  have key : ∀ a b R, (s.exch.get? (a, b, R)).isSome = (s.exch.get? (b, a, -R)).isSome := by
    intro a b R
    rw [Bool.eq_iff_iff, PyDict.isSome_get?_iff, PyDict.isSome_get?_iff]
    exact ⟨h (a, b, R), fun hb => by simpa [Bond.mirror] using h (b, a, -R) hb⟩
  unfold St.contains
  cases hx : s.find x with
  | error e => cases hy : s.find y <;> simp [hx, hy]
  | ok a =>
    cases hy : s.find y with
    | error e => simp only [hx, hy, reduceCtorEq]
    | ok b =>
      simp only [hx, hy, Except.ok.injEq]
      rw [key a b R]

/-- **C19.** After any history every atom that occurs in an item of `ham.exchange` or `ham.on_site`
is an atom of the Hamiltonian. -/
theorem C19_atoms_of_parameters (m : Mem K) (atoms : List Atom) (spin : Atom → Option K) (dist : Bond → K)
    (ops : List (Op K)) :
    (∀ p ∈ (runOps ops (St.empty m atoms spin dist)).exchangeItems,
      p.1.1 ∈ (runOps ops (St.empty m atoms spin dist)).atoms ∧
        p.1.2.1 ∈ (runOps ops (St.empty m atoms spin dist)).atoms) ∧
    (∀ p ∈ (runOps ops (St.empty m atoms spin dist)).onSiteItems,
      p.1 ∈ (runOps ops (St.empty m atoms spin dist)).atoms) := by
  have h := (runOps_inv ops _ (St.inv_empty m atoms spin dist)).refer
  generalize runOps ops (St.empty m atoms spin dist) = s at h
  constructor
  · intro p hp
    simp only [St.exchangeItems, List.mem_map] at hp
    obtain ⟨q, hq, rfl⟩ := hp
    exact h.exch q.1 (List.mem_map_of_mem hq)
  · intro p hp
    simp only [St.onSiteItems, List.mem_map] at hp
    obtain ⟨q, hq, rfl⟩ := hp
    exact h.site q.1 (List.mem_map_of_mem hq)

/-- **C10, what is provable.** If no call shares parameter objects or contradicts a mirror that is
already stored (`GoodRun`), and all spins are defined, then after the history the matrix of
`(b, a, -R)` is the transpose of the matrix of `(a, b, R)`: in every state, whatever the notation,
for every pair of which both members are present; with `double_counting == True` both are.

Missing for the full property: histories with a call that is not `Good` — see
`C10_mirror_transposed_false`. -/
theorem C10_mirror_transposed_partial (m : Mem K) (atoms : List Atom) (sp : Atom → K) (dist : Bond → K)
    (ops : List (Op K)) (hg : GoodRun ops (St.empty m atoms (fun a => some (sp a)) dist))
    (hdc : (runOps ops (St.empty m atoms (fun a => some (sp a)) dist)).dc = some true)
    (a b : Atom) (R : Cell) (J : M3 K)
    (hJ : (runOps ops (St.empty m atoms (fun a => some (sp a)) dist)).valE (a, b, R) = some J) :
    (runOps ops (St.empty m atoms (fun a => some (sp a)) dist)).valE (b, a, -R) = some J.transpose := by
  have h := (runOps_inv3 ops _ (inv3_empty m atoms sp dist) hg).inv2
  generalize runOps ops (St.empty m atoms (fun a => some (sp a)) dist) = s at *
  have hmem : (a, b, R) ∈ s.exch.keys := by
    rw [← PyDict.isSome_get?_iff]
    unfold St.valE at hJ
    cases hg : s.exch.get? (a, b, R) with
    | none => rw [hg] at hJ; cases hJ
    | some r => rfl
  obtain ⟨r, hr⟩ := PyDict.mem_keys_iff.1 (h.inv.closed hdc _ hmem)
  have hv : s.valE (b, a, -R) = some (s.cell r) := by
    unfold St.valE
    rw [show s.exch.get? (b, a, -R) = some r from hr]; rfl
  rw [hv, h.cons (a, b, R) J _ hJ hv]

/-- The same without double counting: the two members of a pair, if both are stored, never contradict
each other. -/
theorem C10_pairs_consistent_partial (m : Mem K) (atoms : List Atom) (sp : Atom → K) (dist : Bond → K)
    (ops : List (Op K)) (hg : GoodRun ops (St.empty m atoms (fun a => some (sp a)) dist))
    (a b : Atom) (R : Cell) (J J' : M3 K)
    (hJ : (runOps ops (St.empty m atoms (fun a => some (sp a)) dist)).valE (a, b, R) = some J)
    (hJ' : (runOps ops (St.empty m atoms (fun a => some (sp a)) dist)).valE (b, a, -R) = some J') :
    J' = J.transpose :=
  (runOps_inv3 ops _ (inv3_empty m atoms sp dist) hg).inv2.cons (a, b, R) J J' hJ hJ'

/-! ### Concrete cases -/

namespace HistoryExample

def fe1 : Atom := ⟨"Fe1", 1⟩
def fe2 : Atom := ⟨"Fe2", 2⟩

def mA : M3 ℚ := !![1, 2, 3; 4, 5, 6; 7, 8, 9]
def mB : M3 ℚ := !![1, 0, 0; 0, 2, 0; 0, 0, 3]

/-- A new Hamiltonian, spins 5/2. -/
def s0 : St ℚ := St.empty ⟨fun _ => 0, 0⟩ [fe1] (fun _ => some (5 / 2)) (fun _ => 1)

/-- Notation, two bonds, an on-site term, removal by name, a raising call, a change of notation. -/
def ops : List (Op ℚ) :=
  [.setNotation (.str "SpinW"), .addExchange (.atom fe1) (.atom fe2) (1, 0, 0) (.fresh mA),
   .addExchange (.atom fe2) (.atom fe2) (0, 1, 0) (.fresh mB), .addOnSite (.atom fe1) (.fresh mB),
   .delItem (.bond (.atom fe1) (.atom fe1) (5, 0, 0)), .setNotation (.str "tb2j")]

/-- Hypothesis and conclusion of C09 hold with both memberships true. -/
example : (runOps ops s0).dc = some true ∧
    (runOps ops s0).contains (.bond (.name "Fe1") (.name "Fe2") (1, 0, 0)) = .ok true ∧
    (runOps ops s0).contains (.bond (.name "Fe2") (.name "Fe1") (-1, 0, 0)) = .ok true := by
  decide +kernel

/-- C19: the history adds `Fe2` to the crystal, and four bonds refer to the atoms. -/
example : (runOps ops s0).atoms = [fe1, fe2] ∧ (runOps ops s0).exchangeItems.length = 4 := by
  decide +kernel

theorem ops_good : GoodRun ops s0 := by
  refine ⟨trivial, ⟨trivial, fun a b ha hb => ?_⟩, ⟨trivial, fun a b ha hb => ?_⟩, trivial, trivial, trivial, trivial⟩
  · cases ha; cases hb
    refine ⟨fun h => absurd h (by decide +kernel), fun m' h => absurd h ?_⟩
    have : ((Op.setNotation (.str "SpinW")).step s0).st.valE (Bond.mirror (fe1, fe2, (1, 0, 0))) = none := by
      decide +kernel
    rw [this]; simp
  · cases ha; cases hb
    refine ⟨fun h => absurd h (by decide +kernel), fun m' h => absurd h ?_⟩
    have : ((Op.addExchange (.atom fe1) (.atom fe2) (1, 0, 0) (.fresh mA)).step
        ((Op.setNotation (.str "SpinW")).step s0).st).st.valE (Bond.mirror (fe2, fe2, (0, 1, 0))) = none := by
      decide +kernel
    rw [this]; simp

/-- C10: the history is good, and the values are as claimed (rescaled by `-25/4`). -/
example : GoodRun ops s0 ∧
    ((runOps ops s0).valE (fe1, fe2, (1, 0, 0))).map (fun M => M 0 1) = some (-25 / 2) ∧
    ((runOps ops s0).valE (fe2, fe1, (-1, 0, 0))).map (fun M => M 1 0) = some (-25 / 2) :=
  ⟨ops_good, by decide +kernel, by decide +kernel⟩

/-- Adding a bond a second time with another parameter. -/
def reAdd : List (Op ℚ) :=
  [.setNotation (.str "SpinW"), .addExchange (.atom fe1) (.atom fe2) (1, 0, 0) (.fresh mA),
   .addExchange (.atom fe1) (.atom fe2) (1, 0, 0) (.fresh mB)]

/-- One parameter object for two bonds, then spin normalisation with different spins is applied twice
to the object, but only once to the mirrors. -/
def shared : List (Op ℚ) :=
  [.newParam mA, .setDC true, .setEF 1, .addExchange (.atom fe1) (.atom fe2) (1, 0, 0) (.obj 0),
   .addExchange (.atom fe1) (.atom fe2) (2, 0, 0) (.obj 0), .setEF 2]

end HistoryExample

open HistoryExample in
/-- **C10 is false of the code**: re-adding a bond (hamiltonian.py 710-726) leaves the old mirror. -/
theorem C10_mirror_transposed_false :
    ¬ ∀ (m : Mem ℚ) (atoms : List Atom) (sp : Atom → ℚ) (dist : Bond → ℚ) (ops : List (Op ℚ)),
      (runOps ops (St.empty m atoms (fun a => some (sp a)) dist)).dc = some true →
      ∀ (a b : Atom) (R : Cell) (J : M3 ℚ),
        (runOps ops (St.empty m atoms (fun a => some (sp a)) dist)).valE (a, b, R) = some J →
        (runOps ops (St.empty m atoms (fun a => some (sp a)) dist)).valE (b, a, -R) = some J.transpose := by
  intro h
  have h1 := h ⟨fun _ => 0, 0⟩ [fe1] (fun _ => 5 / 2) (fun _ => 1) reAdd (by decide +kernel) fe1 fe2 (1, 0, 0)
  have e : ((runOps reAdd s0).valE (fe1, fe2, (1, 0, 0))).map (fun M => M 1 0) = some 0 := by decide +kernel
  have e' : ((runOps reAdd s0).valE (fe2, fe1, -(1, 0, 0))).map (fun M => M 0 1) = some 4 := by decide +kernel
  cases hJ : (runOps reAdd s0).valE (fe1, fe2, (1, 0, 0)) with
  | none => rw [hJ] at e; cases e
  | some J =>
    have h2 : (runOps reAdd s0).valE (fe2, fe1, -(1, 0, 0)) = some J.transpose := h1 J hJ
    rw [hJ] at e
    rw [h2] at e'
    simp only [Option.map_some, Option.some.injEq, Matrix.transpose_apply] at e e'
    rw [e] at e'
    norm_num at e'

open HistoryExample in
/-- Sharing one parameter object between two bonds also breaks C10: the object is rescaled twice, each
mirror once. -/
example :
    ((runOps shared s0).valE (fe1, fe2, (1, 0, 0))).map (fun M => M 0 1) = some (2 / 4) ∧
    ((runOps shared s0).valE (fe2, fe1, (-1, 0, 0))).map (fun M => M 1 0) = some (2 / 2) := by
  decide +kernel

end Magnopy
