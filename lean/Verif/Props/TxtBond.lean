import Verif.Spec.TxtBond
import Verif.Props.TxtUnits
import Verif.Props.Param
import Verif.Props.HamDict
import Verif.Lemmas.EnergyInit

/-!
# Property C49: a bond given by several keyword lines
-/

set_option autoImplicit false
set_option linter.unusedSectionVars false

namespace Magnopy

open Txt Spec

section
variable {K : Type} [Field K] [CharZero K]

theorem floats_numbers {L : Lib K} {ws : List Str} {xs : List K} (h : Numbers L ws xs) : floats L ws = .ok xs := by
  induction h with
  | nil => rfl
  | cons h _ ih => rw [floats, parse, h, ih]

theorem readRow_numbers {L : Lib K} {ws : List Str} {x y z : K} (h : Numbers L ws [x, y, z]) :
    readRow L ws = .ok ![x, y, z] := by
  rw [readRow, floats_numbers h]; rfl

/-- The keyword arguments after the lines `gs`. -/
structure Holds (p : Parts K) (gs : List (Given K)) : Prop where
  iso : p.iso = Given.lastIso gs
  dmi : p.dmi = (Given.lastDmi gs).map fun d => [d 0, d 1, d 2]
  symm : p.symm = Given.lastSymmetric gs
  matrix : p.matrix = Given.lastMatrix gs
  sym : ∀ m, Given.lastSymmetric gs = some m → m.transpose = m ∧ m.trace = 0

theorem holds_nil : Holds ({} : Parts K) [] := ⟨rfl, rfl, rfl, rfl, fun _ h => by simp [Given.lastSymmetric] at h⟩

theorem Holds.iso' {p : Parts K} {gs : List (Given K)} (h : Holds p gs) (j : K) :
    Holds { p with iso := some j } (gs ++ [.iso j]) := by
  refine ⟨?_, ?_, ?_, ?_, ?_⟩
  · simp [Given.lastIso]
  · simpa [Given.lastDmi] using h.dmi
  · simpa [Given.lastSymmetric] using h.symm
  · simpa [Given.lastMatrix] using h.matrix
  · simpa [Given.lastSymmetric] using h.sym

theorem Holds.dmi' {p : Parts K} {gs : List (Given K)} (h : Holds p gs) (x y z : K) :
    Holds { p with dmi := some [x, y, z] } (gs ++ [.dmi ![x, y, z]]) := by
  refine ⟨?_, ?_, ?_, ?_, ?_⟩
  · simpa [Given.lastIso] using h.iso
  · simp [Given.lastDmi]
  · simpa [Given.lastSymmetric] using h.symm
  · simpa [Given.lastMatrix] using h.matrix
  · simpa [Given.lastSymmetric] using h.sym

theorem Holds.symm' {p : Parts K} {gs : List (Given K)} (h : Holds p gs) {m : M3 K} (hm : m.transpose = m ∧ m.trace = 0) :
    Holds { p with symm := some m } (gs ++ [.symmetric m]) := by
  refine ⟨?_, ?_, ?_, ?_, ?_⟩
  · simpa [Given.lastIso] using h.iso
  · simpa [Given.lastDmi] using h.dmi
  · simp [Given.lastSymmetric]
  · simpa [Given.lastMatrix] using h.matrix
  · intro n hn
    simp only [Given.lastSymmetric, List.reverse_append, List.reverse_cons, List.reverse_nil, List.nil_append,
      List.cons_append, List.findSome?_cons, Option.some.injEq] at hn
    exact hn ▸ hm

theorem Holds.matrix' {p : Parts K} {gs : List (Given K)} (h : Holds p gs) (m : M3 K) :
    Holds { p with matrix := some m } (gs ++ [.matrix m]) := by
  refine ⟨?_, ?_, ?_, ?_, ?_⟩
  · simpa [Given.lastIso] using h.iso
  · simpa [Given.lastDmi] using h.dmi
  · simpa [Given.lastSymmetric] using h.symm
  · simp [Given.lastMatrix]
  · simpa [Given.lastSymmetric] using h.sym

theorem toM3_rowsOf (m : M3 K) : (rowsOf m).toM3 = .ok m := by
  unfold rowsOf Param.ArrayLike.toM3
  refine congrArg Except.ok ?_
  ext i j
  fin_cases i <;> fin_cases j <;> rfl

/-- The matrix built from the keyword arguments. -/
theorem init_holds {p : Parts K} {gs : List (Given K)} (h : Holds p gs) :
    ∃ J, Combined gs J ∧
      (Param.init (p.matrix.map rowsOf) p.iso (p.symm.map rowsOf) (p.dmi.map .vector)).toExcept = .ok J := by
  let rows : M3 K → List (List K) := fun m => [[m 0 0, m 0 1, m 0 2], [m 1 0, m 1 1, m 1 2], [m 2 0, m 2 1, m 2 2]]
  obtain ⟨J, h1, h2⟩ := C02_constructor (p.matrix.map rows) p.iso (p.symm.map rows) p.dmi (p.matrix.getD 0)
    (by cases p.matrix with
      | none => rfl
      | some m => exact toM3_rowsOf m)
    (p.symm.getD 0)
    (fun r hr => by
      cases hs : p.symm with
      | none => simp [hs] at hr
      | some m =>
        simp only [hs, Option.map_some, Option.some.injEq] at hr
        rw [← hr]
        exact toM3_rowsOf m)
    (fun hs => by
      cases e : p.symm with
      | none => simp [e] at hs
      | some m => exact h.sym m (by rw [← h.symm, e]))
    ((Given.lastDmi gs).getD 0)
    (fun xs hx => by
      rw [h.dmi] at hx
      cases e : Given.lastDmi gs with
      | none => simp [e] at hx
      | some d =>
        simp only [e, Option.map_some, Option.some.injEq] at hx
        rw [← hx]
        unfold Param.ArrayLike.toV3
        refine congrArg Except.ok ?_
        funext i
        fin_cases i <;> rfl)
  refine ⟨J, ⟨_, _, _, C01_decomposition _, ?_⟩, ?_⟩
  · convert h2 using 1
    · rw [h.iso, h.matrix]
    · rw [h.symm, h.matrix]
      cases Given.lastSymmetric gs <;> rfl
    · rw [h.dmi, h.matrix]
      cases Given.lastDmi gs <;> rfl
  · rw [Option.map_map, Option.map_map] at h1
    have e : (Param.ArrayLike.rows ∘ rows : M3 K → Param.ArrayLike K) = rowsOf := rfl
    rw [e] at h1
    rw [h1]; rfl

/-- `add_exchange` by names with keyword arguments. -/
theorem addExchange_name {s : St K} {n k : String} {A B : Atom} (h1 : s.getAtom n = .ok A) (h2 : s.getAtom k = .ok B)
    (R : Cell) (J : M3 K) :
    St.addExchange (.name n) (.name k) R (.fresh J) s = .ok ((s.alloc J).1.putBond (A, B, R) s.next) := by
  have e1 : s.findOrAdd (.name n) = .ok (s, A) := by simp [St.findOrAdd, h1, Except.map]
  have e2 : s.findOrAdd (.name k) = .ok (s, B) := by simp [St.findOrAdd, h2, Except.map]
  simp only [St.addExchange, e1, e2, St.resolve]
  rfl

theorem put_read {s : St K} (ha : s.Alloc) (b : Bond) (J : M3 K) :
    BondRead s ((s.alloc J).1.putBond b s.next) b J J ∧ ((s.alloc J).1.putBond b s.next).Alloc := by
  set s1 := (s.alloc J).1 with hs1
  have ham : s1.toHam = s.toHam := rfl
  have hn : s1.next = s.next + 1 := rfl
  have hc : ∀ q < s.next, s1.cell q = s.cell q := fun q hq => by
    rw [hs1, St.alloc]
    exact Function.update_of_ne (by omega) _ _
  have hJ : s1.cell s.next = J := Function.update_self _ _ _
  have ha1 : s1.Alloc := ⟨fun c q h => lt_of_lt_of_le (ha.exch c q h) (by omega),
    fun c q h => lt_of_lt_of_le (ha.site c q h) (by omega)⟩
  have hE : ∀ c, s1.valE c = s.valE c := fun c => St.valE_congr ham ha hc c
  have hv := St.putBond_valE ha1 (b := b) (r := s.next) (by omega)
  have hf := St.putBond_frame s1 b s.next
  have hk : (b.mirror ∉ s1.exch.keys) ↔ s.valE b.mirror = none := by
    rw [St.valE, Option.map_eq_none_iff, PyDict.get?_eq_none_iff]
    rfl
  refine ⟨⟨?_, fun hm => ?_, fun c h1 h2 => ?_, fun a => ?_, ?_, hf.1⟩, St.putBond_alloc ha1 b (by omega)⟩
  · rw [hv, if_pos rfl, hJ]
  · rw [hv, if_neg hm, hJ, hE]
    by_cases h : s.dc = some true ∧ s.valE b.mirror = none
    · rw [if_pos h, if_pos ⟨h.1, rfl, hk.2 h.2⟩]; rfl
    · rw [if_neg h, if_neg fun h' => h ⟨h'.1, hk.1 h'.2.2⟩]
  · rw [hv, if_neg h1, if_neg fun h => h2 h.2.1, hE]
  · rw [St.putBond_valO ha1]
    exact St.valO_congr ham ha hc a
  · rw [hf.2.2.1, hf.2.2.2.1, hf.2.2.2.2.1, hf.2.2.2.2.2.1]
    rfl

theorem BondRead.trans {s t u : St K} {b : Bond} {J₁ J J₂ : M3 K} (h : BondRead s t b J₁ J₁) (h' : BondRead t u b J J₂) :
    BondRead s u b J J₁ := by
  have hd : t.dc = s.dc := congrArg Prod.fst h.settings
  refine ⟨h'.value, fun hm => ?_, fun c h1 h2 => (h'.other c h1 h2).trans (h.other c h1 h2),
    fun a => (h'.onSite a).trans (h.onSite a), h'.settings.trans h.settings, h'.atoms.trans h.atoms⟩
  rw [h'.mirror hm, h.mirror hm, hd]
  by_cases h1 : s.dc = some true ∧ s.valE b.mirror = none
  · simp [h1]
  · rw [if_neg h1, if_neg h1]

theorem getAtom_atoms {s t : St K} (h : t.atoms = s.atoms) (n : String) : t.getAtom n = s.getAtom n := by
  rw [St.getAtom, St.getAtom, h]

theorem addParts_read {s : St K} (ha : s.Alloc) {n1 n2 : Str} {A B : Atom} (h1 : s.getAtom (String.ofList n1) = .ok A)
    (h2 : s.getAtom (String.ofList n2) = .ok B) (R : Cell) {p : Parts K} {gs : List (Given K)} (h : Holds p gs) :
    ∃ t J, addParts n1 n2 R p s = .ok t ∧ t.Alloc ∧ Combined gs J ∧ BondRead s t (A, B, R) J J := by
  obtain ⟨J, hJ, hi⟩ := init_holds h
  obtain ⟨h3, h4⟩ := put_read ha (A, B, R) J
  refine ⟨_, J, ?_, h4, hJ, h3⟩
  rw [addParts, hi]
  simp only [addExchange_name h1 h2]
  rfl

/-- One keyword line and the rest. -/
theorem step_read {L : Lib K} {n1 n2 : Str} {A B : Atom} {R : Cell} {ls : List Str} {gs pre : List (Given K)} {g : Given K}
    {p : Parts K} {s : St K} (ha : s.Alloc) (h1 : s.getAtom (String.ofList n1) = .ok A)
    (h2 : s.getAtom (String.ofList n2) = .ok B) (hp : Holds p (pre ++ [g]))
    (ih : ∀ (pre : List (Given K)) (p : Parts K) (s : St K), s.Alloc → s.getAtom (String.ofList n1) = .ok A →
      s.getAtom (String.ofList n2) = .ok B → Holds p pre → ∃ t, bondLines L n1 n2 R ls p s = .ok t ∧ t.Alloc ∧ (gs = [] → t = s) ∧
      ∀ g rest, gs = g :: rest → ∃ J J₁, Combined (pre ++ gs) J ∧ Combined (pre ++ [g]) J₁ ∧ BondRead s t (A, B, R) J J₁) :
    ∃ t, (addParts n1 n2 R p s).bind (bondLines L n1 n2 R ls p) = .ok t ∧ t.Alloc ∧
      ∃ J J₁, Combined (pre ++ g :: gs) J ∧ Combined (pre ++ [g]) J₁ ∧ BondRead s t (A, B, R) J J₁ := by
  obtain ⟨u, J₁, hu, hua, hc, hr⟩ := addParts_read ha h1 h2 R hp
  obtain ⟨t, ht, hta, h0, hgs⟩ := ih (pre ++ [g]) p u hua ((getAtom_atoms hr.atoms _).trans h1)
    ((getAtom_atoms hr.atoms _).trans h2) hp
  refine ⟨t, by rw [hu]; exact ht, hta, ?_⟩
  cases gs with
  | nil => exact ⟨J₁, J₁, hc, hc, h0 rfl ▸ hr⟩
  | cons g' rest =>
    obtain ⟨J, J₂, h3, -, h4⟩ := hgs g' rest rfl
    exact ⟨J, J₁, by simpa using h3, hc, hr.trans h4⟩

theorem bondLines_read {L : Lib K} {n1 n2 : Str} {A B : Atom} {R : Cell} {ls : List Str} {gs : List (Given K)}
    (hg : Gives L ls gs) : ∀ (pre : List (Given K)) (p : Parts K) (s : St K), s.Alloc →
      s.getAtom (String.ofList n1) = .ok A →
      s.getAtom (String.ofList n2) = .ok B → Holds p pre → ∃ t, bondLines L n1 n2 R ls p s = .ok t ∧ t.Alloc ∧ (gs = [] → t = s) ∧
      ∀ g rest, gs = g :: rest → ∃ J J₁, Combined (pre ++ gs) J ∧ Combined (pre ++ [g]) J₁ ∧ BondRead s t (A, B, R) J J₁ := by
  have fin : ∀ {gs : List (Given K)} {g : Given K} {pre : List (Given K)} {s : St K} {r : Except PyErr (St K)},
      (∃ t, r = .ok t ∧ t.Alloc ∧ ∃ J J₁, Combined (pre ++ g :: gs) J ∧ Combined (pre ++ [g]) J₁ ∧ BondRead s t (A, B, R) J J₁) →
      ∃ t, r = .ok t ∧ t.Alloc ∧ (g :: gs = [] → t = s) ∧ ∀ g' rest, g :: gs = g' :: rest →
        ∃ J J₁, Combined (pre ++ g :: gs) J ∧ Combined (pre ++ [g']) J₁ ∧ BondRead s t (A, B, R) J J₁ := by
    rintro gs g pre s r ⟨t, h1, h0, h2⟩
    refine ⟨t, h1, h0, by simp, fun g' rest e => ?_⟩
    rw [← (List.cons.inj e).1]
    exact h2
  have c : ∀ (a b : Char) (t : Str), Str.startsWith (a :: t) [b] = decide (b = a) := by
    intro a b t
    simp only [Str.startsWith, List.isPrefixOf, Bool.and_true]
    rfl
  induction hg with
  | nil => exact fun pre p s ha _ _ _ => ⟨s, rfl, ha, fun _ => rfl, fun _ _ h => by simp at h⟩
  | iso h1 h2 h3 _ ih =>
    intro pre p s ha hA hB hp
    apply fin
    rw [bondLines.eq_def]
    dsimp only
    rw [h1, c, if_pos (by decide)]
    obtain ⟨h, -⟩ := List.forall₂_cons.1 h3
    simp only [h2, word, List.getElem?_cons_succ, List.getElem?_cons_zero, Except.bind, parse, h]
    exact step_read ha hA hB (hp.iso' _) ih
  | dmi h1 h2 h3 _ ih =>
    intro pre p s ha hA hB hp
    apply fin
    rw [bondLines.eq_def]
    dsimp only
    rw [h1, c, if_neg (by decide), c, if_pos (by decide), h2]
    simp only [List.tail_cons, floats_numbers h3]
    exact step_read ha hA hB (hp.dmi' _ _ _) ih
  | symmetric h1 h2 h3 _ ih =>
    intro pre p s ha hA hB hp
    apply fin
    rw [bondLines.eq_def]
    dsimp only
    rw [h1, c, if_neg (by decide), c, if_neg (by decide), c, if_pos (by decide), h2]
    simp only [List.tail_cons, floats_numbers h3, Except.bind, symmOf]
    refine step_read ha hA hB (hp.symm' ⟨?_, ?_⟩) ih
    · ext i j
      fin_cases i <;> fin_cases j <;> rfl
    · rw [Matrix.trace_fin_three]
      simp
  | matrix h1 h2 h3 h4 _ ih =>
    intro pre p s ha hA hB hp
    apply fin
    rw [bondLines.eq_def]
    dsimp only
    rw [h1, c, if_neg (by decide), c, if_neg (by decide), c, if_neg (by decide), c, if_pos (by decide)]
    simp only [readRow_numbers h2, readRow_numbers h3, readRow_numbers h4]
    exact step_read ha hA hB (hp.matrix' _) ih

/-- Reading the block of a bond. -/
theorem readBond_read {L : Lib K} {s : St K} (ha : s.Alloc) {h n1 n2 wi wj wk : Str} {i j k : ℤ} {A B : Atom}
    {ls : List Str} {g : Given K} {gs : List (Given K)} (hh : h.split = [n1, n2, wi, wj, wk]) (hi : L.int wi = some i)
    (hj : L.int wj = some j) (hk : L.int wk = some k) (hA : s.getAtom (String.ofList n1) = .ok A)
    (hB : s.getAtom (String.ofList n2) = .ok B) (hg : Gives L ls (g :: gs)) :
    ∃ t J J₁, readBond L (h :: ls) s = .ok t ∧ t.Alloc ∧ Combined (g :: gs) J ∧ Combined [g] J₁ ∧
      BondRead s t (A, B, (i, j, k)) J J₁ := by
  obtain ⟨t, ht, hta, -, h2⟩ := bondLines_read (R := (i, j, k)) hg [] {} s ha hA hB holds_nil
  obtain ⟨J, J₁, h3, h4, h5⟩ := h2 g gs rfl
  refine ⟨t, J, J₁, ?_, hta, h3, h4, h5⟩
  simp only [readBond, List.headD_cons, hh, parseInt, hi, hj, hk, List.tail_cons]
  exact ht

/-- **C49 (value; part of C49).** A block with at least one keyword line is read; the bond gets the combination of all
keywords, the mirror which double counting creates is the transpose of what the *first* keyword gives, nothing else changes. -/
theorem C49_combined {L : Lib K} {s : St K} (ha : s.Alloc) {h n1 n2 wi wj wk : Str} {i j k : ℤ} {A B : Atom}
    {ls : List Str} {g : Given K} {gs : List (Given K)} (hh : h.split = [n1, n2, wi, wj, wk]) (hi : L.int wi = some i)
    (hj : L.int wj = some j) (hk : L.int wk = some k) (hA : s.getAtom (String.ofList n1) = .ok A)
    (hB : s.getAtom (String.ofList n2) = .ok B) (hg : Gives L ls (g :: gs)) :
    ∃ t J J₁, readBond L (h :: ls) s = .ok t ∧ Combined (g :: gs) J ∧ Combined [g] J₁ ∧
      BondRead s t (A, B, (i, j, k)) J J₁ := by
  obtain ⟨t, J, J₁, h1, -, h2, h3, h4⟩ := readBond_read ha hh hi hj hk hA hB hg
  exact ⟨t, J, J₁, h1, h2, h3, h4⟩

theorem Combined.unique {gs : List (Given K)} {J J' : M3 K} (h : Combined gs J) (h' : Combined gs J') : J = J' := by
  obtain ⟨j, S, D, h1, h2⟩ := h
  obtain ⟨j', S', D', h1', h2'⟩ := h'
  obtain ⟨rfl, rfl, rfl⟩ := C01_unique _ h1
  obtain ⟨rfl, rfl, rfl⟩ := C01_unique _ h1'
  rw [h2.sum, h2'.sum]

/-- **C49 (mirror; part of C49).** A block with one keyword line: the created mirror is the transpose of the bond. -/
theorem C49_mirror_partial {L : Lib K} {s : St K} (ha : s.Alloc) {h n1 n2 wi wj wk : Str} {i j k : ℤ} {A B : Atom}
    {ls : List Str} {g : Given K} (hh : h.split = [n1, n2, wi, wj, wk]) (hi : L.int wi = some i)
    (hj : L.int wj = some j) (hk : L.int wk = some k) (hA : s.getAtom (String.ofList n1) = .ok A)
    (hB : s.getAtom (String.ofList n2) = .ok B) (hg : Gives L ls [g]) (hd : s.dc = some true)
    (hne : A ≠ B ∨ (i, j, k) ≠ 0) (hm : s.valE (B, A, (-i, -j, -k)) = none) :
    ∃ t J, readBond L (h :: ls) s = .ok t ∧ Combined [g] J ∧ t.valE (A, B, (i, j, k)) = some J ∧
      t.valE (B, A, (-i, -j, -k)) = some J.transpose := by
  obtain ⟨t, J, J₁, h1, h2, h3, h4⟩ := C49_combined ha hh hi hj hk hA hB hg
  have hne' : Bond.mirror (A, B, (i, j, k)) ≠ (A, B, (i, j, k)) := by
    intro e
    simp only [Bond.mirror, Prod.mk.injEq] at e
    rcases hne with hne | hne
    · exact hne e.2.1
    · apply hne
      obtain ⟨-, -, e1, e2, e3⟩ := e
      simp only [Prod.mk_eq_zero]
      omega
  refine ⟨t, J, h1, h2, h4.value, ?_⟩
  rw [h2.unique h3]
  exact (h4.mirror hne').trans (if_pos ⟨hd, hm⟩)

end

namespace TxtExample

/-- One iron atom, double counting. -/
def ironTwice : St ℚ := { iron with dc := some true }

/-- Isotropic exchange and DMI of one bond. -/
def isoDmi : List Str := ["Fe Fe 1 0 0", "Isotropic 1", "DMI 2 0 0"].map Str.lit

/-- Values at the bond and at its mirror. -/
def twoValues (r : Except PyErr (St ℚ)) : Option (ℚ × ℚ) :=
  r.toOption.bind fun s => (s.valE (⟨"Fe", 1⟩, ⟨"Fe", 1⟩, (1, 0, 0))).bind fun m =>
    (s.valE (⟨"Fe", 1⟩, ⟨"Fe", 1⟩, (-1, 0, 0))).map fun m' => (m 1 2, m' 2 1)

end TxtExample

/-- **C49 (mirror) is false.** Isotropic exchange and DMI: the created mirror is not the transpose of the bond. -/
theorem C49_mirror_false : ∃ (L : Lib ℚ) (s : St ℚ) (ls : List Str), s.dc = some true ∧
    (∃ gs, Gives L ls.tail gs ∧ gs.length = 2) ∧ TxtExample.twoValues (readBond L ls s) = some (2, 0) := by
  refine ⟨TxtExample.lib, TxtExample.ironTwice, TxtExample.isoDmi, rfl,
    ⟨[.iso 1, .dmi ![2, 0, 0]], ?_, rfl⟩, by decide +kernel⟩
  refine .iso (t := Str.lit "sotropic 1") (k := Str.lit "Isotropic") (w := ['1']) (by decide +kernel) (by decide +kernel)
    (.cons (by decide +kernel) .nil) (.dmi (t := Str.lit "mi 2 0 0") (k := Str.lit "DMI") (ws := [['2'], ['0'], ['0']])
    (by decide +kernel) (by decide +kernel) (.cons (by decide +kernel) (.cons (by decide +kernel) (.cons (by decide +kernel) .nil)))
    .nil)

/-- All keywords in one block. -/
example : (TxtExample.twoValues (readBond TxtExample.lib (["Fe Fe 1 0 0", "Matrix", "1 2 3", "4 5 6", "7 8 9", "DMI 2 0 0",
    "Symmetric 1 2 3 4 5", "isotropic 1"].map Str.lit) TxtExample.ironTwice)) = some (7, 6) := by
  decide +kernel

end Magnopy
