import Verif.Model.Ham

/-!
# The setters of the notation with rounding

The same statements as in `Model/Ham` (hamiltonian.py 231-274, 367-392, 424-445, 477-486, 518-527), but every product and every
quotient of floats is rounded: `fl` is the rounding.  Simplified: there is no overflow, no `inf` and no `nan`; division of a matrix
by a zero product of spins is outside of the model (`x / 0 = 0` here).
-/

set_option autoImplicit false

namespace Magnopy

namespace St

variable {K : Type*} [Field K]

/-- `self[atom1, atom2, ijk].matrix *= c` (or `/= c`): every entry is replaced; evaluating `c` may raise. -/
def imulBondFl (c : Bond → St K → Except PyErr (K → K)) (b : Bond) (s : St K) : Res (St K) :=
  match s.exch.get? b with
  | none => .raise s .keyError
  | some r =>
    match c b s with
    | .error e => .raise s e
    | .ok f => .ok (s.write r ((s.cell r).map f))

/-- `self[atom].matrix *= c` (or `/= c`): every entry is replaced; evaluating `c` may raise. -/
def imulSiteFl (c : Atom → St K → Except PyErr (K → K)) (a : Atom) (s : St K) : Res (St K) :=
  match s.onSite.get? a with
  | none => .raise s .keyError
  | some r =>
    match c a s with
    | .error e => .raise s e
    | .ok f => .ok (s.write r ((s.cell r).map f))

/-- `for atom1, atom2, ijk in self._exchange: self[...].matrix *= c`. -/
def scaleExchFl (c : Bond → St K → Except PyErr (K → K)) (s : St K) : Res (St K) :=
  forEach s.exch.keys (imulBondFl c) s

/-- `for atom in self._on_site: self[...].matrix *= c`. -/
def scaleSiteFl (c : Atom → St K → Except PyErr (K → K)) (s : St K) : Res (St K) :=
  forEach s.onSite.keys (imulSiteFl c) s

/-- `double_counting.setter`, hamiltonian.py 367-392: `matrix *= 2` or `matrix *= 0.5`. -/
def setDCFl (fl : K → K) (new : Bool) (s : St K) : Res (St K) :=
  let old := s.dc
  let s1 : St K := { s with dc := some new }
  let r : Res (St K) :=
    if old = some true ∧ new = false then s1.scaleExchFl (fun _ _ => .ok fun x => fl (x * 2))
    else if old = some false ∧ new = true then s1.scaleExchFl (fun _ _ => .ok fun x => fl (x * (1 / 2)))
    else .ok s1
  r.andThen (if new then ensureDC else ensureNoDC)

/-- `spin_normalized.setter`, hamiltonian.py 424-445: the product of the spins is rounded, then the product (quotient) of every
entry with (by) it. -/
def setSNFl (fl : K → K) (new : Bool) (s : St K) : Res (St K) :=
  let r : Res (St K) :=
    if s.sn = some true ∧ new = false then
      (s.scaleExchFl fun b t => (t.spinProd b.1 b.2.1).map fun p x => fl (x / fl p)).andThen
        (scaleSiteFl fun a t => (t.spinProd a a).map fun p x => fl (x / fl p))
    else if s.sn = some false ∧ new = true then
      (s.scaleExchFl fun b t => (t.spinProd b.1 b.2.1).map fun p x => fl (x * fl p)).andThen
        (scaleSiteFl fun a t => (t.spinProd a a).map fun p x => fl (x * fl p))
    else .ok s
  r.andThen fun t => .ok { t with sn := some new }

/-- `exchange_factor.setter`, hamiltonian.py 478-486: the quotient of the factors is rounded, then every product with it. -/
def setEFFl [DecidableEq K] (fl : K → K) (new : K) (s : St K) : Res (St K) :=
  let r : Res (St K) :=
    match s.ef with
    | some old => if old ≠ new then s.scaleExchFl (fun _ _ => (ratio old new).map fun q x => fl (x * fl q)) else .ok s
    | none => .ok s
  r.andThen fun t => .ok { t with ef := some new }

/-- `on_site_factor.setter`, hamiltonian.py 519-527. -/
def setOFFl [DecidableEq K] (fl : K → K) (new : K) (s : St K) : Res (St K) :=
  let r : Res (St K) :=
    match s.osf with
    | some old => if old ≠ new then s.scaleSiteFl (fun _ _ => (ratio old new).map fun q x => fl (x * fl q)) else .ok s
    | none => .ok s
  r.andThen fun t => .ok { t with osf := some new }

/-- The assignment of the four values, hamiltonian.py 269-274. -/
def setFourFl [DecidableEq K] (fl : K → K) (dc sn : Bool) (ef osf : K) (s : St K) : Res (St K) :=
  (((s.setDCFl fl dc).andThen (setSNFl fl sn)).andThen (setEFFl fl ef)).andThen (setOFFl fl osf)

/-- `notation.setter`, hamiltonian.py 230-274. -/
def setNotationFl [DecidableEq K] (fl : K → K) (arg : NotationArg K) (s : St K) : Res (St K) :=
  match arg with
  | .str n =>
    match predefined n.toLower with
    | some (d, n, e, o) => s.setFourFl fl d n e o
    | none => .raise s .valueError
  | .seq [d, n, e] => s.setFourFl fl (decide (d ≠ 0)) (decide (n ≠ 0)) e e
  | .seq [d, n, e, o] => s.setFourFl fl (decide (d ≠ 0)) (decide (n ≠ 0)) e o
  | .seq _ => .raise s .valueError
  | .other => .raise s .valueError

end St

/-- Run one operation with rounding.  Only assignments to the notation compute with floats. -/
def Op.stepFl {K : Type*} [Field K] [LinearOrder K] (fl : K → K) : Op K → St K → Res (St K)
  | .setDC b, s => s.setDCFl fl b
  | .setSN b, s => s.setSNFl fl b
  | .setEF x, s => s.setEFFl fl x
  | .setOF x, s => s.setOFFl fl x
  | .setNotation a, s => s.setNotationFl fl a
  | o, s => o.step s

/-- A user program with rounding. -/
def runFl {K : Type*} [Field K] [LinearOrder K] (fl : K → K) : List (Op K) → St K → St K
  | [], s => s
  | o :: os, s => runFl fl os (o.stepFl fl s).st

end Magnopy
