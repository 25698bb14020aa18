import Verif.Model.HamFloat
import Mathlib.Algebra.Order.Field.Basic
import Mathlib.Algebra.Order.Ring.Abs
import Mathlib.Algebra.Order.Round
import Mathlib.Data.Int.Log
import Mathlib.Data.Rat.Floor
import Verif.Spec.Energy
import Verif.Spec.Notation

/-!
# Specification: rounding and round-off
-/

set_option autoImplicit false

namespace Magnopy

variable {K : Type*} [Field K] [LinearOrder K]

/-- The standard model of floating-point arithmetic: rounding changes a number by at most the fraction `u` of it
(`u = 2⁻⁵³` for Python floats that are rounded to nearest). -/
structure IsRounding (fl : K → K) (u : K) : Prop where
  nonneg : 0 ≤ u
  lt : u < 1
  close : ∀ x, |fl x - x| ≤ u * |x|

/-- `y` is `x` up to `n` roundings. -/
def Rounded (u : K) (n : ℕ) (x y : K) : Prop := ∃ θ, (1 - u) ^ n ≤ θ ∧ θ * (1 - u) ^ n ≤ 1 ∧ y = x * θ

/-- Roundings of an exchange parameter in one assignment to the notation: one for `double_counting`, two for `spin_normalized`
(the product of the spins and the product with it), two for `exchange_factor`. -/
def Op.roundE : Op K → ℕ
  | .setDC _ => 1
  | .setSN _ => 2
  | .setEF _ => 2
  | .setNotation _ => 5
  | _ => 0

/-- Roundings of an on-site parameter in one assignment to the notation: two for `spin_normalized`, two for `on_site_factor`. -/
def Op.roundO : Op K → ℕ
  | .setSN _ => 2
  | .setOF _ => 2
  | .setNotation _ => 4
  | _ => 0

/-- The bound of Wilkinson for `n` roundings. -/
def gamma (u : K) (n : ℕ) : K := n * u / (1 - n * u)

/-- All components of the spins without their signs. -/
def Config.abs {Γ : Type*} [AddCommGroup Γ] (c : Config K Γ) : Config K Γ := ⟨c.τ, fun a n i => |c.σ a n i|⟩

/-- The sum of the absolute values of all terms of the exchange energy. -/
def St.exchSize {Γ : Type*} [AddCommGroup Γ] [Fintype Γ] (s : St K) (c : Config K Γ) (n : Bool) (spin : Atom → K) (e : K) : K :=
  |e| * c.abs.bonds (fun a => |weight n spin a|) (s.exchangeItems.map fun p => (p.1, p.2.map abs))

/-- The sum of the absolute values of all terms of the on-site energy. -/
def St.siteSize {Γ : Type*} [AddCommGroup Γ] [Fintype Γ] (s : St K) (c : Config K Γ) (n : Bool) (spin : Atom → K) (o : K) : K :=
  |o| * c.abs.sites (fun a => |weight n spin a|) (s.onSiteItems.map fun p => (p.1, p.2.map abs))

/-- A rounding of binary numbers: it has no preferred sign and no preferred scale. -/
structure IsBinary (fl : K → K) : Prop where
  one : fl 1 = 1
  neg : ∀ x, fl (-x) = -fl x
  two : ∀ x, fl (x * 2) = fl x * 2

/-- A power of two, with any sign. -/
def Dyadic (x : K) : Prop := ∃ k : ℤ, x = 2 ^ k ∨ x = -2 ^ k

/-- The operation assigns the notation or one of its attributes; factors are powers of two; `spin_normalized` becomes `n0`, or
anything if `any` holds. -/
def Op.NoRounding (any : Prop) (n0 : Bool) : Op K → Prop
  | .setDC _ => True
  | .setSN b => any ∨ b = n0
  | .setEF x => Dyadic x
  | .setOF x => Dyadic x
  | .setNotation a => ∀ q, a.Means q → (any ∨ q.2.1 = n0) ∧ Dyadic q.2.2.1 ∧ Dyadic q.2.2.2
  | _ => False

/-- Rounding of a positive number to `p` binary digits (a tie is rounded up). -/
def binaryPos (p : ℕ) (x : ℚ) : ℚ := round (x * 2 ^ (p - 1 - Int.log 2 x : ℤ)) * 2 ^ (Int.log 2 x - p + 1 : ℤ)

/-- Rounding to `p` binary digits (a tie is rounded away from zero; Python takes the even one, with `p = 53`). -/
def binary (p : ℕ) (x : ℚ) : ℚ := if x = 0 then 0 else if x < 0 then -binaryPos p (-x) else binaryPos p x

end Magnopy
