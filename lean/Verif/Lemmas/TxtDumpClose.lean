import Verif.Lemmas.TxtDumpBond
import Mathlib.Tactic.Linarith

/-!
# Lemmas: precision of what is read from a written file
-/

set_option autoImplicit false
set_option linter.unusedSectionVars false

namespace Magnopy
namespace Txt

open Spec

section
variable {K : Type} [Field K] [LinearOrder K] [IsStrictOrderedRing K]

/-- Half of the last of `d` digits. -/
noncomputable def half (d : ℕ) : K := 1 / (2 * 10 ^ d)

theorem half_pos (d : ℕ) : 0 < (half d : K) := by unfold half; positivity

theorem close_iff {n d : ℕ} {a b : K} : Close n d a b ↔ a - b ≤ n * half d ∧ -(n * half d) ≤ a - b := by
  have h : (0 : K) < 2 * 10 ^ d := by positivity
  rw [Close, half, ← le_div_iff₀ h, abs_le, div_eq_mul_one_div]
  tauto

theorem close_mono {n m d : ℕ} {a b : K} (h : Close n d a b) (hm : n ≤ m) : Close m d a b :=
  le_trans h (by exact_mod_cast hm)

/-- Two matrices with decompositions whose parts are close. -/
theorem parts_close {J m : M3 K} {j j' : K} {S S' : M3 K} {D D' : V3 K} (h : IsDecomposition J j S D) (h' : IsDecomposition m j' S' D')
    (hj : Close 1 4 j j') (hs : ∀ i, Close 2 4 (S i i) (S' i i)) (hs' : ∀ a b, a ≠ b → Close 1 4 (S a b) (S' a b))
    (hD : ∀ i, Close 1 4 (D i) (D' i)) (a b : Fin 3) : Close 3 4 (J a b) (m a b) := by
  have e : J a b = j * (1 : M3 K) a b + S a b + dmMatrix D a b := by
    conv_lhs => rw [h.sum]
    simp [Matrix.add_apply]
  have e' : m a b = j' * (1 : M3 K) a b + S' a b + dmMatrix D' a b := by
    conv_lhs => rw [h'.sum]
    simp [Matrix.add_apply]
  have hh := half_pos (K := K) 4
  simp only [close_iff, Nat.cast_one, Nat.cast_ofNat, one_mul] at hj hs hs' hD ⊢
  rw [e, e']
  have d0 := hD 0
  have d1 := hD 1
  have d2 := hD 2
  fin_cases a <;> fin_cases b
  · have := hs 0
    simp [dmMatrix]
    constructor <;> linarith
  · have := hs' 0 1 (by decide)
    simp [dmMatrix]
    constructor <;> linarith
  · have := hs' 0 2 (by decide)
    simp [dmMatrix]
    constructor <;> linarith
  · have := hs' 1 0 (by decide)
    simp [dmMatrix]
    constructor <;> linarith
  · have := hs 1
    simp [dmMatrix]
    constructor <;> linarith
  · have := hs' 1 2 (by decide)
    simp [dmMatrix]
    constructor <;> linarith
  · have := hs' 2 0 (by decide)
    simp [dmMatrix]
    constructor <;> linarith
  · have := hs' 2 1 (by decide)
    simp [dmMatrix]
    constructor <;> linarith
  · have := hs 2
    simp [dmMatrix]
    constructor <;> linarith

/-- The parts of a rounded matrix. -/
theorem matrix_parts {n m : M3 K} (h : ∀ i j, Close 1 4 (n i j) (m i j)) : Close 1 4 (Param.iso n) (Param.iso m) ∧
    (∀ i, Close 2 4 (Param.aniso n i i) (Param.aniso m i i)) ∧
    (∀ a b, a ≠ b → Close 1 4 (Param.aniso n a b) (Param.aniso m a b)) ∧ ∀ i, Close 1 4 (Param.dmi n i) (Param.dmi m i) := by
  have hh := half_pos (K := K) 4
  simp only [close_iff, Nat.cast_one, Nat.cast_ofNat, one_mul] at h ⊢
  have h00 := h 0 0
  have h01 := h 0 1
  have h02 := h 0 2
  have h10 := h 1 0
  have h11 := h 1 1
  have h12 := h 1 2
  have h20 := h 2 0
  have h21 := h 2 1
  have h22 := h 2 2
  refine ⟨?_, ?_, ?_, ?_⟩
  · simp only [Param.iso, Param.symmMatrix, Matrix.of_apply]
    constructor <;> linarith
  · intro i
    fin_cases i <;> simp [Param.aniso, Param.eye, Param.iso, Param.symmMatrix] <;> constructor <;> linarith
  · intro a b hab
    fin_cases a <;> fin_cases b <;> simp [Param.aniso, Param.eye, Param.symmMatrix] at hab ⊢ <;> constructor <;> linarith
  · intro i
    fin_cases i <;> simp [Param.dmi, Param.asymmMatrix] <;> constructor <;> linarith

/-- The rounded anisotropy. -/
theorem rdS_close {F : Fmt K} {L : Lib K} (h : Prints F L) (m : M3 K) : (∀ i, Close 2 4 (rdS F L m i i) (Param.aniso m i i)) ∧
    ∀ a b, a ≠ b → Close 1 4 (rdS F L m a b) (Param.aniso m a b) := by
  have hd := C01_decomposition m
  have hs : ∀ a b, Param.aniso m a b = Param.aniso m b a := fun a b => by
    conv_lhs => rw [← hd.symmetric]
    rfl
  have ht : Param.aniso m 0 0 + Param.aniso m 1 1 + Param.aniso m 2 2 = 0 := by
    simpa [Matrix.trace, Fin.sum_univ_three] using hd.traceless
  have hh := half_pos (K := K) 4
  have h00 := h.close 4 (Param.aniso m 0 0)
  have h11 := h.close 4 (Param.aniso m 1 1)
  have h01 := h.close 4 (Param.aniso m 0 1)
  have h02 := h.close 4 (Param.aniso m 0 2)
  have h12 := h.close 4 (Param.aniso m 1 2)
  refine ⟨?_, ?_⟩
  · simp only [close_iff, Nat.cast_one, Nat.cast_ofNat, one_mul] at h00 h11 ⊢
    intro i
    fin_cases i <;> simp [rdS] <;> constructor <;> linarith
  · intro a b hab
    fin_cases a <;> fin_cases b
    · exact absurd rfl hab
    · exact h01
    · exact h02
    · rw [hs]; exact h01
    · exact absurd rfl hab
    · exact h12
    · rw [hs]; exact h02
    · rw [hs]; exact h12
    · exact absurd rfl hab

theorem rdM_close {F : Fmt K} {L : Lib K} (h : Prints F L) (m : M3 K) (i j : Fin 3) : Close 1 4 (rdM F L m i j) (m i j) := by
  fin_cases i <;> fin_cases j <;> exact h.close 4 _

theorem rdD_close {F : Fmt K} {L : Lib K} (h : Prints F L) (m : M3 K) (i : Fin 3) : Close 1 4 (rdD F L m i) (Param.dmi m i) := by
  fin_cases i <;> exact h.close 4 _

/-- The value of a bond which was written and read. -/
theorem given_close {F : Fmt K} {L : Lib K} (h : Prints F L) {o : Opts} (ho : o.Complete) {m J : M3 K} (hJ : Combined (given F L o m) J)
    (a b : Fin 3) : Close o.halves 4 (J a b) (m a b) := by
  obtain ⟨j, S, D, h1, h2⟩ := hJ
  have l1 : Given.lastIso (given F L o m) = if o.iso then some (rd F L 4 (Param.iso m)) else none := by
    rw [given]
    cases o.iso <;> cases o.dmi <;> cases o.symm <;> cases o.matrix <;> rfl
  have l2 : Given.lastDmi (given F L o m) = if o.dmi then some (rdD F L m) else none := by
    rw [given]
    cases o.iso <;> cases o.dmi <;> cases o.symm <;> cases o.matrix <;> rfl
  have l3 : Given.lastSymmetric (given F L o m) = if o.symm then some (rdS F L m) else none := by
    rw [given]
    cases o.iso <;> cases o.dmi <;> cases o.symm <;> cases o.matrix <;> rfl
  have l4 : Given.lastMatrix (given F L o m) = if o.matrix then some (rdM F L m) else none := by
    rw [given]
    cases o.iso <;> cases o.dmi <;> cases o.symm <;> cases o.matrix <;> rfl
  rw [l1, l2, l3] at h2
  rw [l4] at h1
  rw [Opts.halves]
  have hm := C01_decomposition m
  obtain ⟨s1, s2⟩ := rdS_close h m
  have d1 := rdD_close h m
  have i1 := h.close 4 (Param.iso m)
  by_cases hp : (o.iso || o.dmi || o.symm) = true
  · rw [if_pos hp]
    rcases ho with ho | ⟨h3, h4, h5⟩
    · rw [ho, if_pos rfl, Option.getD_some] at h1
      obtain ⟨rfl, rfl, rfl⟩ := C01_unique _ h1
      obtain ⟨p1, p2, p3, p4⟩ := matrix_parts (rdM_close h m)
      refine parts_close h2 hm ?_ ?_ ?_ ?_ a b
      · cases o.iso <;> assumption
      · cases o.symm <;> assumption
      · cases o.symm <;> assumption
      · cases o.dmi <;> assumption
    · rw [h3, h4, h5] at h2
      exact parts_close h2 hm i1 s1 s2 d1 a b
  · rw [if_neg hp]
    simp only [Bool.or_eq_true, not_or, Bool.not_eq_true] at hp
    obtain ⟨⟨h3, h4⟩, h5⟩ := hp
    rcases ho with ho | ⟨h6, -⟩
    · rw [h3, h4, h5] at h2
      rw [ho, if_pos rfl, Option.getD_some] at h1
      have : J = rdM F L m := by
        rw [h2.sum, h1.sum]; rfl
      rw [this]
      exact rdM_close h m a b
    · rw [h6] at h3
      exact absurd h3 (by decide)

end

end Txt
end Magnopy
