import Verif.Model.ParamHeap

/-!
# Specification: parameters as plain matrices
-/

set_option autoImplicit false

namespace Magnopy
namespace ParamHeap

open Param

variable {K : Type*} [Field K] [LinearOrder K] [FloorRing K]

/-- The statement assigns to an attribute of the parameter `q`, or writes into the array that `q.matrix` is. -/
def Touches (w : World K) (q : ℕ) : Op K → Prop
  | .writeArray r _ _ _ => r = w.ref q
  | .setMatrix p _ => p = q
  | .setIso p _ => p = q
  | .setAniso p _ => p = q
  | .setDmi p _ => p = q
  | .setEntry p _ _ _ => p = q
  | _ => False

/-- The statement assigns to `q.matrix`, `q.iso`, `q.aniso` or `q.dmi`. -/
def Rebinds (q : ℕ) : Op K → Prop
  | .setMatrix p _ => p = q
  | .setIso p _ => p = q
  | .setAniso p _ => p = q
  | .setDmi p _ => p = q
  | _ => False

/-- A matrix that is written down. -/
def rowsOf (m : M3 K) : ArrayLike K := .rows [[m 0 0, m 0 1, m 0 2], [m 1 0, m 1 1, m 1 2], [m 2 0, m 2 1, m 2 2]]

/-- What is passed, if parameters are plain matrices; there are no arrays. -/
def plain (vs : List (M3 K)) : Src K → Option (ArrayLike K)
  | .written a => some a
  | .array _ => none
  | .param p => vs[p]?.map rowsOf

/-- The same for an optional argument: `none` if a variable does not exist. -/
def plainOpt (vs : List (M3 K)) : Option (Src K) → Option (Option (ArrayLike K))
  | none => some none
  | some a => (plain vs a).map some

/-- An assignment to an attribute of a plain matrix. -/
def plainSet (vs : List (M3 K)) (p : ℕ) (f : M3 K → Res (M3 K)) : Res (List (M3 K)) :=
  match vs[p]? with
  | some m => ⟨vs.set p (f m).st, (f m).err⟩
  | none => .raise vs .nameError

/-- A new plain matrix, if nothing was raised. -/
def plainNew (vs : List (M3 K)) (r : Res (M3 K)) : Res (List (M3 K)) :=
  match r.err with
  | none => .ok (vs ++ [r.st])
  | some e => .raise vs e

/-- One statement, if parameters are plain matrices without identity: the functions of `Model/Param`. -/
def plainStep (vs : List (M3 K)) : Op K → Res (List (M3 K))
  | .newArray _ => .ok vs
  | .writeArray _ _ _ _ => .raise vs .nameError
  | .readPart p _ => plainSet vs p .ok
  | .new matrix iso aniso dmi =>
    match plainOpt vs matrix, plainOpt vs aniso with
    | some m, some a => plainNew vs (Param.init m iso a dmi)
    | _, _ => .raise vs .nameError
  | .setMatrix p a =>
    match plain vs a with
    | some a => plainSet vs p fun m => Param.assignMatrix m a
    | none => .raise vs .nameError
  | .setIso p v => plainSet vs p fun m => .ok (Param.setIso m v)
  | .setAniso p a =>
    match plain vs a with
    | some a => plainSet vs p fun m => Param.assignAniso m a
    | none => .raise vs .nameError
  | .setDmi p a => plainSet vs p fun m => Param.assignDmi m a
  | .setEntry p i j v => plainSet vs p fun m => .ok (Param.setEntry m i j v)
  | .unary f p =>
    match vs[p]? with
    | some m => plainNew vs (.ok (f.eval m))
    | none => .raise vs .nameError
  | .binary f p q =>
    match vs[p]?, vs[q]? with
    | some m, some n => plainNew vs (.ok (f.eval m n))
    | _, _ => .raise vs .nameError
  | .scalar f p v =>
    match vs[p]? with
    | some m => plainNew vs (.ok (f.eval m v))
    | none => .raise vs .nameError

/-- A program on plain matrices: the matrices at the end and the exceptions on the way. -/
def plainRun (vs : List (M3 K)) : List (Op K) → List (M3 K) × List (Option PyErr)
  | [] => (vs, [])
  | op :: ops =>
    let r := plainStep vs op
    let q := plainRun r.st ops
    (q.1, r.err :: q.2)

/-- The same for objects: the matrices of all parameters at the end and the exceptions on the way. -/
def observe (w : World K) : List (Op K) → List (M3 K) × List (Option PyErr)
  | [] => ((List.range w.params).map w.value, [])
  | op :: ops =>
    let r := step w op
    let q := observe r.st ops
    (q.1, r.err :: q.2)

/-- The statement does not use arrays: no array is written to or passed. -/
def NoArray : Op K → Prop
  | .writeArray _ _ _ _ => False
  | .new m _ a _ => (∀ r, m ≠ some (.array r)) ∧ ∀ r, a ≠ some (.array r)
  | .setMatrix _ a => ∀ r, a ≠ .array r
  | .setAniso _ a => ∀ r, a ≠ .array r
  | _ => True

end ParamHeap
end Magnopy
