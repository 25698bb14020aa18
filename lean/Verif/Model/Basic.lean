import Mathlib.LinearAlgebra.Matrix.Notation
import Mathlib.LinearAlgebra.Matrix.Trace
import Mathlib.Data.Matrix.Basic

/-!
# Shared vocabulary of the model

`M3 K` is a 3x3 array, `V3 K` a vector of length three over the number type `K`.
Python exceptions are values of `PyErr`.
-/

set_option autoImplicit false

namespace Magnopy

/-- A `(3, 3)` float array. -/
abbrev M3 (K : Type*) := Matrix (Fin 3) (Fin 3) K

/-- A `(3,)` float array. -/
abbrev V3 (K : Type*) := Fin 3 → K

/-- The Python exceptions which the modelled code can raise. -/
inductive PyErr where
  | keyError | valueError | typeError | attributeError | notationError | zeroDivision
  | nameError | indexError | runtimeError | fileExists | colpaFailed
  deriving DecidableEq, Repr

/-- Result of a Python statement that mutates a state: the state after the statement (also if an
exception was raised half-way) together with the raised exception, if any. -/
structure Res (σ : Type*) where
  /-- the state after the statement -/
  st : σ
  /-- the exception which left the statement, if any -/
  err : Option PyErr

namespace Res
variable {σ : Type*}

/-- A statement that did not raise. -/
def ok (s : σ) : Res σ := ⟨s, none⟩

/-- A statement that raised `e` in state `s`. -/
def raise (s : σ) (e : PyErr) : Res σ := ⟨s, some e⟩

/-- Python sequencing: the second statement runs only if the first one did not raise. -/
def andThen (r : Res σ) (f : σ → Res σ) : Res σ :=
  match r.err with
  | none => f r.st
  | some _ => r

@[simp] theorem st_ok (s : σ) : (ok s).st = s := rfl
@[simp] theorem err_ok (s : σ) : (ok s).err = none := rfl
@[simp] theorem st_raise (s : σ) (e) : (raise s e).st = s := rfl
@[simp] theorem err_raise (s : σ) (e) : (raise s e).err = some e := rfl
@[simp] theorem ok_andThen (s : σ) (f : σ → Res σ) : (ok s).andThen f = f s := rfl
@[simp] theorem raise_andThen (s : σ) (e) (f : σ → Res σ) : (raise s e).andThen f = raise s e := rfl

/-- Any predicate preserved by both parts (whatever they raise) is preserved by the sequence. -/
theorem andThen_inv {P : σ → Prop} {r : Res σ} {f : σ → Res σ} (h1 : P r.st)
    (h2 : ∀ s, P s → P (f s).st) : P (r.andThen f).st := by
  unfold andThen
  cases r.err with
  | none => exact h2 _ h1
  | some e => exact h1

end Res

/-- Python `for x in xs: body(x)` where the body mutates the state and may raise. -/
def forEach {σ α : Type*} (xs : List α) (body : α → σ → Res σ) (s : σ) : Res σ :=
  match xs with
  | [] => Res.ok s
  | x :: xs => (body x s).andThen (forEach xs body)

theorem forEach_inv {σ α : Type*} {P : σ → Prop} {body : α → σ → Res σ}
    (h : ∀ x s, P s → P (body x s).st) (xs : List α) (s : σ) (hs : P s) :
    P (forEach xs body s).st := by
  induction xs generalizing s with
  | nil => exact hs
  | cons x xs ih => exact Res.andThen_inv (h x s hs) ih

end Magnopy
