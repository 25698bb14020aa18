import Verif.Spec.WellFormed
import Verif.Spec.Wave

/-!
# Specification: the textbook formulas of spin waves

The sums are over the parameters as the user stores them, in the notation of the user.  All energies are those of the
classical energy (`St.physics`): the factor of the notation, and the lengths of the spins if the notation does not
normalise them.
-/

set_option autoImplicit false

namespace Magnopy

open Matrix Complex

/-- The vector from the first to the second atom of a bond. -/
def displacement (lat : M3 ℝ) (pos : Atom → V3 ℝ) (b : Bond) : V3 ℝ :=
  absolute lat fun i => b.2.2.rel i + (pos b.2.1 i - pos b.1 i)

/-- A real matrix as a complex one. -/
def complexM (m : M3 ℝ) : M3 ℂ := m.map fun x => (x : ℂ)

/-- The Fourier transform of the energies of the bonds between `a` and `a'`: a stored bond from `a` to `a'` with the
displacement `d` contributes half of its energy times `exp(-i k·d)`, a bond from `a'` to `a` half of the transposed
times `exp(i k·d)`. -/
noncomputable def St.bondFourier (s : St ℝ) (lat : M3 ℝ) (pos : Atom → V3 ℝ) (spin : Atom → ℝ) (k : V3 ℝ)
    (a a' : Atom) : M3 ℂ :=
  match s.getNotation with
  | .error _ => 0
  | .ok (_, n, e, _) => (s.exchangeItems.map fun p =>
      ((e * (weight n spin p.1.1 * weight n spin p.1.2.1) / 2 : ℝ) : ℂ) •
        ((if p.1.1 = a ∧ p.1.2.1 = a' then exp (-(I * ((k ⬝ᵥ displacement lat pos p.1 : ℝ) : ℂ))) • complexM p.2 else 0) +
          if p.1.1 = a' ∧ p.1.2.1 = a then exp (I * ((k ⬝ᵥ displacement lat pos p.1 : ℝ) : ℂ)) • complexM p.2ᵀ else 0)).sum

/-- The energy of the on-site parameter of `a`. -/
noncomputable def St.siteEnergy (s : St ℝ) (spin : Atom → ℝ) (a : Atom) : M3 ℂ :=
  match s.getNotation with
  | .error _ => 0
  | .ok (_, n, _, o) => ((o * weight n spin a ^ 2 : ℝ) : ℂ) • complexM ((s.valO a).getD 0)

/-- The same for a Hamiltonian of scalar products, whose parameters are numbers times the unit matrix. -/
noncomputable def St.scalarFourier (s : St ℝ) (lat : M3 ℝ) (pos : Atom → V3 ℝ) (spin : Atom → ℝ) (k : V3 ℝ)
    (a a' : Atom) : ℂ := s.bondFourier lat pos spin k a a' 0 0

/-- The amplitude of the transfer of a spin deviation between `a'` and `a`. -/
noncomputable def St.transfer (s : St ℝ) (lat : M3 ℝ) (pos : Atom → V3 ℝ) (spin : Atom → ℝ) (k : V3 ℝ) (a a' : Atom) : ℂ :=
  2 * s.scalarFourier lat pos spin (-k) a a' / (Real.sqrt (spin a * spin a') : ℂ)

/-- Twice the energy of the spin `a` in the field of all spins, per length of the spin; `σ` are the signs of the spins
along the common direction. -/
noncomputable def St.field (s : St ℝ) (lat : M3 ℝ) (pos : Atom → V3 ℝ) (spin σ : Atom → ℝ) (atoms : List Atom) (a : Atom) : ℂ :=
  (atoms.map fun l => 2 * ((σ a * σ l : ℝ) : ℂ) * s.scalarFourier lat pos spin 0 a l / (spin a : ℂ)).sum

/-- The energy of a spin deviation at `a` that is transferred only between equivalent atoms.  It is a real number, see
`stiffness_eq`. -/
noncomputable def St.stiffness (s : St ℝ) (lat : M3 ℝ) (pos : Atom → V3 ℝ) (spin σ : Atom → ℝ) (atoms : List Atom) (k : V3 ℝ)
    (a : Atom) : ℝ := (s.transfer lat pos spin k a a - s.field lat pos spin σ atoms a).re

/-- The matrix of a magnet with parallel spins: its eigenvalues are the energies of the magnons. -/
noncomputable def St.ferroMatrix (s : St ℝ) (lat : M3 ℝ) (pos : Atom → V3 ℝ) (spin : Atom → ℝ) {N : ℕ} (a : Fin N → Atom)
    (k : V3 ℝ) : Matrix (Fin N) (Fin N) ℂ :=
  .of fun i j => s.transfer lat pos spin k (a i) (a j) -
    if i = j then s.field lat pos spin (fun _ => 1) (List.ofFn a) (a i) else 0

/-- The dispersion of a magnet of scalar products with one atom per cell: the sum over the stored bonds of
`2 E (cos(k·d) - 1) / S`, where `E` is the energy of the bond for parallel spins. -/
noncomputable def St.ferroEnergy (s : St ℝ) (lat : M3 ℝ) (pos : Atom → V3 ℝ) (spin : Atom → ℝ) (a : Atom) (k : V3 ℝ) : ℝ :=
  match s.getNotation with
  | .error _ => 0
  | .ok (_, n, e, _) => (s.exchangeItems.map fun p =>
      2 * (e * weight n spin a ^ 2 * p.2 0 0) * (Real.cos (k ⬝ᵥ displacement lat pos p.1) - 1) / spin a).sum

end Magnopy
