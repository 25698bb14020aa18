import Verif.Model.Tb2j
import Verif.Spec.TxtBond
import Mathlib.LinearAlgebra.CrossProduct

/-!
# Specification: what a TB2J file says
-/

set_option autoImplicit false

namespace Magnopy
namespace Tb2j

open Txt

/-- The line mentions the phrase. -/
def Mentions (p : String) (l : Str) : Prop := p.toList <:+: l

/-- The line of 88 minus signs. -/
def IsSep (l : Str) : Prop := List.replicate 88 '-' <:+: l

/-- Without brackets, commas and quotes. -/
def bare (l : Str) : Str := l.filter fun c => c ∉ ['(', ')', '[', ']', ',', '\'']

/-- What a line of a block says. -/
inductive Item (K : Type) where
  | iso (j : K)
  | aniso (m : M3 K)
  | dmi (d : V3 K)

namespace Item

variable {K : Type}

/-- The isotropic value which counts: the last one. -/
def lastIso (is : List (Item K)) : Option K := is.reverse.findSome? fun
  | .iso j => some j
  | _ => none

/-- The last anisotropy. -/
def lastAniso (is : List (Item K)) : Option (M3 K) := is.reverse.findSome? fun
  | .aniso m => some m
  | _ => none

/-- The last DMI vector. -/
def lastDmi (is : List (Item K)) : Option (V3 K) := is.reverse.findSome? fun
  | .dmi d => some d
  | _ => none

/-- The matrix of a block: its energy is `j u·v + u·A v + d·(u × v)` (see `C66_form`); what is not given is zero. -/
def matrix [Field K] (is : List (Item K)) : M3 K :=
  let d := (lastDmi is).getD 0
  (lastIso is).getD 0 • (1 : M3 K) + (lastAniso is).getD 0 + !![0, d 2, -d 1; -d 2, 0, d 0; d 1, -d 0, 0]

end Item

variable {K : Type}

/-- The lines of a block after its first line: lines with one of the three phrases give a value, others are ignored. -/
inductive Says (L : Lib K) : List Str → List (Item K) → Prop
  | nil : Says L [] []
  | other {l : Str} {ls : List Str} {is : List (Item K)} : ¬ Mentions "J_iso:" l → ¬ Mentions "J_ani:" l → ¬ Mentions "DMI:" l →
      ¬ IsSep l → Says L ls is → Says L (l :: ls) is
  | iso {l w : Str} {ws : List Str} {j : K} {ls : List Str} {is : List (Item K)} : Mentions "J_iso:" l → ¬ Mentions "J_ani:" l →
      ¬ Mentions "DMI:" l → ¬ IsSep l → l.split = ws ++ [w] → L.float w = some j → Says L ls is → Says L (l :: ls) (.iso j :: is)
  | aniso {l a b c : Str} {x1 y1 z1 x2 y2 z2 x3 y3 z3 : K} {ls : List Str} {is : List (Item K)} : ¬ Mentions "J_iso:" l →
      Mentions "J_ani:" l → ¬ Mentions "DMI:" l → ¬ IsSep l → Numbers L (bare a).split [x1, y1, z1] →
      Numbers L (bare b).split [x2, y2, z2] → Numbers L (bare c).split [x3, y3, z3] → Says L ls is →
      Says L (l :: a :: b :: c :: ls) (.aniso !![x1, y1, z1; x2, y2, z2; x3, y3, z3] :: is)
  | dmi {l : Str} {ws vs : List Str} {x y z : K} {ls : List Str} {is : List (Item K)} : ¬ Mentions "J_iso:" l →
      ¬ Mentions "J_ani:" l → Mentions "DMI:" l → ¬ IsSep l → (bare l).split = ws ++ vs → Numbers L vs [x, y, z] → Says L ls is →
      Says L (l :: ls) (.dmi ![x, y, z] :: is)

/-- A bond in the file: names of the atoms, cell of the second one, what the block says. -/
structure Entry (K : Type) where
  /-- name of the first atom -/
  name1 : Str
  /-- name of the second atom -/
  name2 : Str
  /-- cell of the second atom -/
  R : Cell
  /-- what the block says -/
  items : List (Item K)

/-- The first line of a block: two names, three integers, and a number at the end; the separator is not one of the words. -/
def Header (L : Lib K) (l : Str) (e : Entry K) : Prop :=
  ∃ i j k ws w, (bare l).split = e.name1 :: e.name2 :: i :: j :: k :: ws ∧ L.int i = some e.R.1 ∧ L.int j = some e.R.2.1 ∧
    L.int k = some e.R.2.2 ∧ (k :: ws).getLast? = some w ∧ (L.float w).isSome ∧
    List.replicate 88 '-' ∉ (bare l).split

/-- A separator without any of the phrases. -/
def Divides (l : Str) : Prop := IsSep l ∧ ¬ Mentions "J_iso:" l ∧ ¬ Mentions "J_ani:" l ∧ ¬ Mentions "DMI:" l

/-- Blocks divided by separators. -/
inductive Blocks (L : Lib K) : List Str → List (Entry K) → Prop
  | last {h : Str} {ls : List Str} {e : Entry K} : Header L h e → Says L ls e.items → Blocks L (h :: ls) [e]
  | cons {h l : Str} {ls rest : List Str} {e : Entry K} {es : List (Entry K)} : Header L h e → Says L ls e.items → Divides l →
      Blocks L rest es → Blocks L (h :: (ls ++ l :: rest)) (e :: es)

/-- An atom in the file: name, absolute position, charge. -/
structure Site (K : Type) where
  /-- name -/
  name : Str
  /-- absolute position -/
  pos : V3 K
  /-- charge -/
  charge : Option K

/-- A line of the table of atoms: name, position, then (if there are more words) a charge and then a magnetic moment. -/
def SaysSite (L : Lib K) (l : Str) (a : Site K) : Prop :=
  Str.lit "Total" ∉ l.split ∧ ∃ x y z ws, l.split = a.name :: x :: y :: z :: ws ∧ Numbers L [x, y, z] [a.pos 0, a.pos 1, a.pos 2] ∧
    (ws = [] ∧ a.charge = none ∨ ∃ w ms, ws = w :: ms ∧ (∃ q, L.float w = some q ∧ a.charge = some q) ∧
      (ms.length < 3 ∨ ∃ mx, Numbers L (ms.take 3) mx))

/-- A line of the header that begins no section. -/
def Quiet (l : Str) : Prop := ¬ Mentions "Cell (Angstrom):" l ∧ ¬ Mentions "Atoms:" l ∧ ¬ Mentions "Exchange:" l

/-- The part of a file up to the table of atoms, including it. -/
structure Top (L : Lib K) (ls : List Str) (cell : M3 K) (atoms : List (Site K)) : Prop where
  ex : ∃ pre l a b c mid m t1 t2 rows, ls = pre ++ l :: a :: b :: c :: (mid ++ m :: t1 :: t2 :: rows) ∧ (∀ x ∈ pre, Quiet x) ∧
    (Mentions "Cell (Angstrom):" l ∧ ¬ Mentions "Atoms:" l ∧ ¬ Mentions "Exchange:" l) ∧
    Numbers L a.split [cell 0 0, cell 0 1, cell 0 2] ∧ Numbers L b.split [cell 1 0, cell 1 1, cell 1 2] ∧
    Numbers L c.split [cell 2 0, cell 2 1, cell 2 2] ∧ (∀ x ∈ mid, Quiet x) ∧
    (¬ Mentions "Cell (Angstrom):" m ∧ Mentions "Atoms:" m) ∧ List.Forall₂ (SaysSite L) rows atoms

/-- The part from the line "Total" to the separator before the first block. -/
def Middle (ls : List Str) : Prop :=
  ∃ t mid x skipped sep, ls = t :: (mid ++ x :: (skipped ++ [sep])) ∧ Str.lit "Total" ∈ t.split ∧ Str.lit "Exchange:" ∉ t.split ∧
    (∀ y ∈ mid, Quiet y) ∧
    (¬ Mentions "Cell (Angstrom):" x ∧ ¬ Mentions "Atoms:" x ∧ Mentions "Exchange:" x ∧ ¬ IsSep x) ∧
    (∀ y ∈ skipped, ¬ IsSep y) ∧ IsSep sep

/-- The atoms are called differently and can be found by their names. -/
def Names (atoms : List (Site K)) : Prop :=
  (atoms.map Site.name).Nodup ∧ ∀ a ∈ atoms, ¬ ['_', '_'] <:+: a.name

/-- Key of a bond by names. -/
abbrev NameKey := Str × Str × Cell

/-- The other direction. -/
def opposite (k : NameKey) : NameKey := (k.2.1, k.1, (-k.2.2.1, -k.2.2.2.1, -k.2.2.2.2))

/-- Key of an entry. -/
def Entry.key (e : Entry K) : NameKey := (e.name1, e.name2, e.R)

/-- What the list of bonds says about a bond: the last entry for it; if there is none, the transpose of the first entry for the
opposite bond. -/
def final [Field K] (es : List (Entry K)) (k : NameKey) : Option (M3 K) :=
  match (es.filter fun e => e.key = k).getLast? with
  | some e => some (Item.matrix e.items)
  | none => ((es.filter fun e => e.key = opposite k).head?).map fun e => (Item.matrix e.items).transpose

/-- The entries do not contradict each other: equal keys have equal matrices, opposite keys transposed ones. -/
def Consistent [Field K] (es : List (Entry K)) : Prop :=
  ∀ e ∈ es, ∀ e' ∈ es, (e'.key = e.key → Item.matrix e'.items = Item.matrix e.items) ∧
    (e'.key = opposite e.key → Item.matrix e'.items = (Item.matrix e.items).transpose)

end Tb2j
end Magnopy
