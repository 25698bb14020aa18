import Verif.Model.Ham
import Mathlib.Algebra.BigOperators.Group.Finset.Basic
import Mathlib.Algebra.Group.Hom.Defs
import Mathlib.Algebra.Group.Prod
import Mathlib.Algebra.Ring.Int.Defs
import Mathlib.Data.Fintype.Basic

/-!
# Specification: the classical energy of a spin Hamiltonian on a periodic supercell

The supercell is a finite abelian group `Γ` of cells with the homomorphism `τ` that reduces a lattice
vector into the supercell (e.g. `ℤ³ → ℤ/n₁ × ℤ/n₂ × ℤ/n₃`).  A configuration gives every atom of every
cell an arbitrary vector `σ a n` (the direction of its spin).

With the bonds `(a, b, R) ↦ J` and on-site terms `a ↦ A` of the Hamiltonian,

    E = C_ex · Σ_bonds w_a w_b Σ_n σ(a, n)ᵀ J σ(b, n + R)  +  C_on · Σ_sites w_a² Σ_n σ(a, n)ᵀ A σ(a, n)

where `w` is the length of the spin, or one if the notation is spin-normalised.  The sums run over the
parameters as they are stored, i.e. both orientations of a bond if the notation counts it twice.
-/

set_option autoImplicit false

namespace Magnopy

variable {K : Type*} [Field K]

/-- `uᵀ J v`. -/
def bilin (u : V3 K) (J : M3 K) (v : V3 K) : K := ∑ i, ∑ j, u i * J i j * v j

/-- A periodic supercell with a spin configuration. -/
structure Config (K Γ : Type*) [AddCommGroup Γ] where
  /-- reduction of lattice vectors into the supercell -/
  τ : Cell →+ Γ
  /-- the spin direction of an atom in a cell -/
  σ : Atom → Γ → V3 K

namespace Config

variable {Γ : Type*} [AddCommGroup Γ] [Fintype Γ]

/-- `Σ_n σ(a, n)ᵀ J σ(b, n + R)`. -/
def bond (c : Config K Γ) (b : Bond) (J : M3 K) : K :=
  ∑ n : Γ, bilin (c.σ b.1 n) J (c.σ b.2.1 (n + c.τ b.2.2))

/-- `Σ_n σ(a, n)ᵀ A σ(a, n)`. -/
def site (c : Config K Γ) (a : Atom) (A : M3 K) : K := ∑ n : Γ, bilin (c.σ a n) A (c.σ a n)

/-- Sum over the bonds, `w` is the weight of an atom. -/
def bonds (c : Config K Γ) (w : Atom → K) (items : List (Bond × M3 K)) : K :=
  (items.map fun p => w p.1.1 * w p.1.2.1 * c.bond p.1 p.2).sum

/-- Sum over the on-site terms. -/
def sites (c : Config K Γ) (w : Atom → K) (items : List (Atom × M3 K)) : K :=
  (items.map fun p => w p.1 * w p.1 * c.site p.1 p.2).sum

end Config

/-- Weight of an atom: its spin, or one in a spin-normalised notation. -/
def weight (spinNormalized : Bool) (spin : Atom → K) (a : Atom) : K := if spinNormalized then 1 else spin a

/-- The classical energy of the stored parameters. -/
def classicalEnergy {Γ : Type*} [AddCommGroup Γ] [Fintype Γ] (c : Config K Γ) (w : Atom → K) (ef osf : K)
    (bonds : List (Bond × M3 K)) (sites : List (Atom × M3 K)) : K :=
  ef * c.bonds w bonds + osf * c.sites w sites

/-- The energy of a Hamiltonian all of whose notation attributes are set and whose atoms have spins. -/
def St.energy {Γ : Type*} [AddCommGroup Γ] [Fintype Γ] (s : St K) (c : Config K Γ) (sn : Bool) (spin : Atom → K)
    (ef osf : K) : K :=
  classicalEnergy c (weight sn spin) ef osf s.exchangeItems s.onSiteItems

end Magnopy
