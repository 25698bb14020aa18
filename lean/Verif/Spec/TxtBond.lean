import Verif.Model.TxtRead
import Verif.Spec.Tensor
import Verif.Spec.Invariants

/-!
# Specification: the block of one bond in a model file
-/

set_option autoImplicit false

namespace Magnopy

open Txt Spec

/-- What one keyword line gives (for the matrix: the keyword and three more lines). -/
inductive Given (K : Type) where
  | iso (j : K)
  | dmi (d : V3 K)
  | symmetric (m : M3 K)
  | matrix (m : M3 K)

/-- The words are numbers. -/
def Numbers {K : Type} (L : Lib K) (ws : List Str) (xs : List K) : Prop := List.Forall₂ (fun w x => L.float w = some x) ws xs

/-- The lines give these values, in this order. -/
inductive Gives {K : Type} [Field K] (L : Lib K) : List Str → List (Given K) → Prop
  | nil : Gives L [] []
  | iso {l k w t : Str} {j : K} {ls : List Str} {gs : List (Given K)} : l.lower = 'i' :: t → l.split = [k, w] →
      Numbers L [w] [j] → Gives L ls gs → Gives L (l :: ls) (.iso j :: gs)
  | dmi {l k t : Str} {ws : List Str} {x y z : K} {ls : List Str} {gs : List (Given K)} : l.lower = 'd' :: t →
      l.split = k :: ws → Numbers L ws [x, y, z] → Gives L ls gs → Gives L (l :: ls) (.dmi ![x, y, z] :: gs)
  | symmetric {l k t : Str} {ws : List Str} {xx yy xy xz yz : K} {ls : List Str} {gs : List (Given K)} : l.lower = 's' :: t →
      l.split = k :: ws → Numbers L ws [xx, yy, xy, xz, yz] → Gives L ls gs →
      Gives L (l :: ls) (.symmetric !![xx, xy, xz; xy, yy, yz; xz, yz, -xx - yy] :: gs)
  | matrix {l t a b c : Str} {x1 y1 z1 x2 y2 z2 x3 y3 z3 : K} {ls : List Str} {gs : List (Given K)} : l.lower = 'm' :: t →
      Numbers L a.split [x1, y1, z1] → Numbers L b.split [x2, y2, z2] → Numbers L c.split [x3, y3, z3] → Gives L ls gs →
      Gives L (l :: a :: b :: c :: ls) (.matrix !![x1, y1, z1; x2, y2, z2; x3, y3, z3] :: gs)

namespace Given

variable {K : Type}

/-- The isotropic value which counts: the last one. -/
def lastIso (gs : List (Given K)) : Option K := gs.reverse.findSome? fun
  | .iso j => some j
  | _ => none

/-- The last DMI vector. -/
def lastDmi (gs : List (Given K)) : Option (V3 K) := gs.reverse.findSome? fun
  | .dmi d => some d
  | _ => none

/-- The last anisotropy. -/
def lastSymmetric (gs : List (Given K)) : Option (M3 K) := gs.reverse.findSome? fun
  | .symmetric m => some m
  | _ => none

/-- The last matrix. -/
def lastMatrix (gs : List (Given K)) : Option (M3 K) := gs.reverse.findSome? fun
  | .matrix m => some m
  | _ => none

end Given

/-- The documented priority: the isotropic, DMI and anisotropy keywords replace the parts of the matrix; what is not given
is zero. -/
def Combined {K : Type} [Field K] (gs : List (Given K)) (J : M3 K) : Prop :=
  ∃ j S D, IsDecomposition ((Given.lastMatrix gs).getD 0) j S D ∧
    IsDecomposition J ((Given.lastIso gs).getD j) ((Given.lastSymmetric gs).getD S) ((Given.lastDmi gs).getD D)

/-- From `s` to `t` the bond `b` got the value `J`; with double counting a missing mirror was created with the transpose of
`J₁`; nothing else changed. -/
structure BondRead {K : Type} [Field K] (s t : St K) (b : Bond) (J J₁ : M3 K) : Prop where
  value : t.valE b = some J
  mirror : b.mirror ≠ b →
    t.valE b.mirror = if s.dc = some true ∧ s.valE b.mirror = none then some J₁.transpose else s.valE b.mirror
  other : ∀ c, c ≠ b → c ≠ b.mirror → t.valE c = s.valE c
  onSite : ∀ a, t.valO a = s.valO a
  settings : (t.dc, t.sn, t.ef, t.osf) = (s.dc, s.sn, s.ef, s.osf)
  atoms : t.atoms = s.atoms

end Magnopy
