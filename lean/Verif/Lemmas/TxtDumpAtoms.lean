import Verif.Lemmas.TxtDump

/-!
# Lemmas: the atoms of a written file
-/

set_option autoImplicit false
set_option linter.unusedSectionVars false

namespace Magnopy
namespace Txt

open H5 (Full)

section
variable {K : Type} [Field K] [LinearOrder K]

/-- The words of the table header. -/
def titleWords : List Str := ["name", "r1", "r2", "r3", "Sx", "Sy", "Sz"].map Str.lit

/-- The words of a spin. -/
def spinWords (F : Fmt K) (s : Option (V3 K)) : List Str :=
  match s with
  | none => [['-'], ['-'], ['-']]
  | some v => [F.fixed 4 (v 0), F.fixed 4 (v 1), F.fixed 4 (v 2)]

theorem spin_line {F : Fmt K} {L : Lib K} (h : Prints F L) {o : Opts} (ho : o.angles = false) (s : Option (V3 K)) :
    ∃ t, spinText F o s = .ok t ∧ Spaced t (spinWords F s) := by
  cases s with
  | none =>
    have : Spaced (padL 8 ['-']) [['-']] := spaced_padL 8 ⟨by simp, by decide +kernel, by decide +kernel⟩
    exact ⟨_, rfl, spaced_join (.cons this (.cons this (.cons this .nil)))⟩
  | some v =>
    refine ⟨_, by rw [spinText, ho]; rfl, spaced_join (.cons (h.narrow _) (.cons (h.narrow _) (.cons (h.narrow _) .nil)))⟩

theorem spin_good {F : Fmt K} {L : Lib K} (h : Prints F L) (s : Option (V3 K)) :
    (spinWords F s).length = 3 ∧ ((spinWords F s).any fun b => !isFloat L b && b != ['-']) = false := by
  cases s with
  | none => exact ⟨rfl, by simp [spinWords]⟩
  | some v => exact ⟨rfl, by simp [spinWords, isFloat, h.float]⟩

/-- The words of an atom line. -/
def atomWords (F : Fmt K) (x : Full K) (a : Atom) : List Str :=
  [a.name.toList, F.fixed 8 (x.pos a 0), F.fixed 8 (x.pos a 1), F.fixed 8 (x.pos a 2)] ++ spinWords F (x.spinVec a)

theorem atoms_lines {F : Fmt K} {L : Lib K} (h : Prints F L) {o : Opts} (ho : o.angles = false) {x : Full K} {as : List Atom}
    (hp : ∀ a ∈ as, Plain a.name.toList) :
    ∃ ls, atomsText F o x as = .ok ls ∧ List.Forall₂ LineOf ls (as.map (atomWords F x)) := by
  induction as with
  | nil => exact ⟨[], rfl, .nil⟩
  | cons a as ih =>
    obtain ⟨ls, h1, h2⟩ := ih (fun b hb => hp b (by simp [hb]))
    obtain ⟨t, h3, h4⟩ := spin_line h ho (x.spinVec a)
    rw [atomsText, h3]
    simp only [h1]
    refine ⟨_, rfl, .cons ?_ h2⟩
    rw [atomWords]
    exact lineOf_spaced (spaced_append (spaced_join (.cons (spaced_padR 4 (hp a (by simp))) (.cons (h.wide _)
      (.cons (h.wide _) (.cons (h.wide _) .nil))))) h4) (by simp)

theorem atomsHeader_congr {c c' : Str} (h : c.split = c'.split) : atomsHeader c = atomsHeader c' := by
  rw [atomsHeader, atomsHeader, Str.split_lower, Str.split_lower, h]

theorem atomsHeader_own {c : Str} (h : Says c titleWords) : atomsHeader c = (7, some 0, false) := by
  rw [atomsHeader_congr (c' := Str.lit "name r1 r2 r3 Sx Sy Sz") (h.split.trans (by decide +kernel))]
  decide +kernel

theorem name_good {F : Fmt K} {L : Lib K} {x : Full K} (hx : Printable F L x) {a : Atom} (ha : a ∈ x.ham.atoms) :
    badName L a.name.toList = false := by
  have hp := hx.words a ha
  obtain ⟨c, t, e⟩ := List.exists_cons_of_ne_nil hp.ne
  have h1 : a.name.toList.head?.any L.alnum = true := by
    rw [e]; simpa using hx.letter a ha c t e
  have h2 : a.name.toList.count '#' = 0 := List.count_eq_zero.2 hp.hash
  have h3 : Str.startsWith a.name.toList (Str.lit "__") = false := by
    rw [← Bool.not_eq_true, Str.startsWith, List.isPrefixOf_iff_prefix]
    exact fun h => hx.kept.plain a ha h.isInfix
  have h4 : Str.endsWith a.name.toList (Str.lit "__") = false := by
    rw [← Bool.not_eq_true, Str.endsWith, List.isSuffixOf_iff_suffix]
    exact fun h => hx.kept.plain a ha h.isInfix
  rw [badName, h1, h2, h3, h4]
  decide

theorem atomsLoop_own {F : Fmt K} {L : Lib K} (h : Prints F L) {x : Full K} (hx : Printable F L x) {as : List Atom}
    (ha : ∀ a ∈ as, a ∈ x.ham.atoms) {cs : List Str} (hs : List.Forall₂ Says cs (as.map (atomWords F x))) :
    atomsLoop L 7 (some 0) cs = .ok (as.map fun a => a.name.toList, false) := by
  induction as generalizing cs with
  | nil =>
    cases hs
    rfl
  | cons a as ih =>
    cases hs with
    | cons h1 h2 =>
      rename_i c cs
      rw [atomsLoop]
      obtain ⟨g1, g2⟩ := spin_good h (x.spinVec a)
      simp only [h1.split, atomWords, List.cons_append, List.nil_append, List.getElem?_cons_zero,
        ih (fun b hb => ha b (by simp [hb])) h2, List.length_cons, g1, name_good hx (ha a (by simp)), List.eraseIdx_cons_zero,
        List.map_cons, List.any_cons, g2]
      simp [isFloat, h.float]

theorem atoms_good {F : Fmt K} {L : Lib K} (h : Prints F L) {x : Full K} (hx : Printable F L x) {A : List Str}
    (hA : List.Forall₂ Says A ([Str.lit "Atoms"] :: titleWords :: x.ham.atoms.map (atomWords F x))) :
    verifyAtoms L A = .ok (x.ham.atoms.map fun a => a.name.toList, false) := by
  cases hA with
  | cons s0 hA =>
    cases hA with
    | cons s1 hA =>
      rename_i c0 cs c1 A
      have hl : A.length = x.ham.atoms.length := by rw [hA.length_eq, List.length_map]
      have hpos : 0 < x.ham.atoms.length := List.length_pos_iff.2 hx.atoms
      rw [verifyAtoms, if_neg (by simp only [List.length_cons]; omega)]
      simp only [List.headD_cons, List.getD_cons_succ, List.getD_cons_zero, atomsHeader_own s1, List.drop_succ_cons, List.drop_zero,
        atomsLoop_own h hx (fun a ha => ha) hA, says_header1 s0]
      have hn : (x.ham.atoms.map fun a => a.name.toList).Nodup := by
        have e : (x.ham.atoms.map fun a => a.name.toList) = (x.ham.atoms.map Atom.name).map String.toList := by rw [List.map_map]; rfl
        rw [e]
        exact hx.kept.unique.map fun a b hab => String.toList_injective hab
      rw [hn.dedup]
      simp [hl]

/-- What is read of an atom. -/
noncomputable def datOf (F : Fmt K) (L : Lib K) (x : Full K) (a : Atom) : AtomData K :=
  ⟨a.name.toList, ![rd F L 8 (x.pos a 0), rd F L 8 (x.pos a 1), rd F L 8 (x.pos a 2)],
    ![rd F L 4 ((x.spinVec a).getD 0 0), rd F L 4 ((x.spinVec a).getD 0 1), rd F L 4 ((x.spinVec a).getD 0 2)], 0, 2⟩

theorem atom_read {F : Fmt K} {L : Lib K} (h : Prints F L) {x : Full K} {a : Atom} (hs : (x.spinVec a).isSome) {l : Str} (hl : Says l (atomWords F x a))
    (cell : M3 K) (c : K) (scale : V3 K) : readAtom L cell c scale (titleWords.map Str.lower) l = .ok (datOf F L x a) := by
  have col : ∀ (k : String) (i : ℕ) (w : Str) (y : K), (titleWords.map Str.lower).idxOf? (Str.lit k) = some i →
      (atomWords F x a)[i]? = some w → L.float w = some y → column L (titleWords.map Str.lower) l.split (Str.lit k) = .ok y := by
    intro k i w y h1 h2 h3
    rw [column, h1, hl.split]
    simp only [word, h2, Except.bind, parse, h3]
  obtain ⟨v, hv⟩ := Option.isSome_iff_exists.1 hs
  have n : atomName (titleWords.map Str.lower) l.split = .ok a.name.toList := by
    have : (titleWords.map Str.lower).idxOf? (Str.lit "name") = some 0 := by decide +kernel
    rw [atomName, this, hl.split]
    rfl
  have m : ∀ k : String, (Str.mem (Str.lit k) (titleWords.map Str.lower) = true) ↔ Str.lit k ∈ titleWords.map Str.lower :=
    fun k => Str.mem_iff
  have p1 := col "r1" 1 _ _ (by decide +kernel) rfl (h.float 8 (x.pos a 0))
  have p2 := col "r2" 2 _ _ (by decide +kernel) rfl (h.float 8 (x.pos a 1))
  have p3 := col "r3" 3 _ _ (by decide +kernel) rfl (h.float 8 (x.pos a 2))
  have q1 := col "sx" 4 _ _ (by decide +kernel) (by rw [atomWords, hv]; rfl) (h.float 4 (v 0))
  have q2 := col "sy" 5 _ _ (by decide +kernel) (by rw [atomWords, hv]; rfl) (h.float 4 (v 1))
  have q3 := col "sz" 6 _ _ (by decide +kernel) (by rw [atomWords, hv]; rfl) (h.float 4 (v 2))
  have e1 : atomCoords L (titleWords.map Str.lower) l.split = .ok ![rd F L 8 (x.pos a 0), rd F L 8 (x.pos a 1), rd F L 8 (x.pos a 2)] := by
    rw [atomCoords, if_pos (by decide +kernel), column3, p1, p2, p3]
    rfl
  have e2 : readSpin L (titleWords.map Str.lower) l.split = .ok ![rd F L 4 (v 0), rd F L 4 (v 1), rd F L 4 (v 2)] := by
    rw [readSpin, if_pos (by decide +kernel), column3, q1, q2, q3]
    rfl
  have e3 : columnOr L (titleWords.map Str.lower) l.split ['q'] 0 = .ok 0 := by
    rw [columnOr, if_neg (by decide +kernel)]
  have e4 : columnOr L (titleWords.map Str.lower) l.split ['g'] 2 = .ok 2 := by
    rw [columnOr, if_neg (by decide +kernel)]
  have e5 : ∀ p, atomPos cell c scale (titleWords.map Str.lower) p = .ok p := by
    intro p
    rw [atomPos, if_pos (by decide +kernel)]
  rw [readAtom, n, e1, e2, e3, e4]
  simp only [bind, Except.bind, e5, datOf, hv, Option.getD_some]

/-- An atom without spin cannot be read back. -/
theorem atom_fails {F : Fmt K} {L : Lib K} (h : Prints F L) (hm : L.float ['-'] = none) {x : Full K} {a : Atom} (hs : x.spinVec a = none)
    {l : Str} (hl : Says l (atomWords F x a)) (cell : M3 K) (c : K) (scale : V3 K) :
    readAtom L cell c scale (titleWords.map Str.lower) l = .error .valueError := by
  have col : ∀ (k : String) (i : ℕ) (w : Str) (y : K), (titleWords.map Str.lower).idxOf? (Str.lit k) = some i →
      (atomWords F x a)[i]? = some w → L.float w = some y → column L (titleWords.map Str.lower) l.split (Str.lit k) = .ok y := by
    intro k i w y h1 h2 h3
    rw [column, h1, hl.split]
    simp only [word, h2, Except.bind, parse, h3]
  have n : atomName (titleWords.map Str.lower) l.split = .ok a.name.toList := by
    have : (titleWords.map Str.lower).idxOf? (Str.lit "name") = some 0 := by decide +kernel
    rw [atomName, this, hl.split]
    rfl
  have p1 := col "r1" 1 _ _ (by decide +kernel) rfl (h.float 8 (x.pos a 0))
  have p2 := col "r2" 2 _ _ (by decide +kernel) rfl (h.float 8 (x.pos a 1))
  have p3 := col "r3" 3 _ _ (by decide +kernel) rfl (h.float 8 (x.pos a 2))
  have q1 : column L (titleWords.map Str.lower) l.split (Str.lit "sx") = .error .valueError := by
    have h1 : (titleWords.map Str.lower).idxOf? (Str.lit "sx") = some 4 := by decide +kernel
    have h2 : (atomWords F x a)[4]? = some ['-'] := by rw [atomWords, hs]; rfl
    rw [column, h1, hl.split]
    simp only [word, h2, Except.bind, parse, hm]
  have e1 : atomCoords L (titleWords.map Str.lower) l.split = .ok ![rd F L 8 (x.pos a 0), rd F L 8 (x.pos a 1), rd F L 8 (x.pos a 2)] := by
    rw [atomCoords, if_pos (by decide +kernel), column3, p1, p2, p3]
    rfl
  have e2 : readSpin L (titleWords.map Str.lower) l.split = .error .valueError := by
    rw [readSpin, if_pos (by decide +kernel), column3, q1]
    rfl
  have e3 : columnOr L (titleWords.map Str.lower) l.split ['q'] 0 = .ok 0 := by
    rw [columnOr, if_neg (by decide +kernel)]
  have e4 : columnOr L (titleWords.map Str.lower) l.split ['g'] 2 = .ok 2 := by
    rw [columnOr, if_neg (by decide +kernel)]
  rw [readAtom, n, e1, e2, e3, e4]
  rfl

theorem atoms_fail {F : Fmt K} {L : Lib K} (h : Prints F L) (hm : L.float ['-'] = none) {x : Full K} (hs : ∃ a ∈ x.ham.atoms, x.spinVec a = none)
    {A : List Str} (hA : List.Forall₂ Says A ([Str.lit "Atoms"] :: titleWords :: x.ham.atoms.map (atomWords F x))) (cell : M3 K)
    (scale : V3 K) : readAtoms L cell scale A = .error .valueError := by
  cases hA with
  | cons s0 hA =>
    cases hA with
    | cons s1 hA =>
      rename_i c0 c1 A
      have hu : atomUnits c0 = Str.lit "relative" := by
        rw [atomUnits, Str.split_lower, s0.split]
        rfl
      have hf : atomFactor (K := K) (Str.lit "relative") = .ok 1 := by
        rw [atomFactor, if_pos (by decide +kernel)]
      simp only [readAtoms, List.headD_cons, hu, hf, bind, Except.bind, List.getD_cons_succ, List.getD_cons_zero, List.drop_succ_cons,
        List.drop_zero, Str.split_lower, s1.split]
      generalize x.ham.atoms = as at hA hs
      induction as generalizing A with
      | nil => simp at hs
      | cons a as ih =>
        cases hA with
        | cons t0 hA =>
          rw [readAtomLines]
          cases hv : x.spinVec a with
          | none => simp only [atom_fails h hm hv t0, bind, Except.bind]
          | some v =>
            have hs' : ∃ a ∈ as, x.spinVec a = none := by
              obtain ⟨b, hb, hb'⟩ := hs
              rcases List.mem_cons.1 hb with rfl | hb
              · rw [hv] at hb'; cases hb'
              · exact ⟨b, hb, hb'⟩
            simp only [atom_read h (by rw [hv]; rfl) t0, ih hA hs', bind, Except.bind]

theorem atoms_read {F : Fmt K} {L : Lib K} (h : Prints F L) {x : Full K} (hs : ∀ a ∈ x.ham.atoms, (x.spinVec a).isSome) {A : List Str}
    (hA : List.Forall₂ Says A ([Str.lit "Atoms"] :: titleWords :: x.ham.atoms.map (atomWords F x))) (cell : M3 K) (scale : V3 K) :
    readAtoms L cell scale A = .ok (x.ham.atoms.map (datOf F L x)) := by
  cases hA with
  | cons s0 hA =>
    cases hA with
    | cons s1 hA =>
      rename_i c0 c1 A
      have hu : atomUnits c0 = Str.lit "relative" := by
        rw [atomUnits, Str.split_lower, s0.split]
        rfl
      have hf : atomFactor (K := K) (Str.lit "relative") = .ok 1 := by
        rw [atomFactor, if_pos (by decide +kernel)]
      simp only [readAtoms, List.headD_cons, hu, hf, bind, Except.bind, List.getD_cons_succ, List.getD_cons_zero, List.drop_succ_cons,
        List.drop_zero, Str.split_lower, s1.split]
      generalize x.ham.atoms = as at hA hs
      induction as generalizing A with
      | nil => cases hA; rfl
      | cons a as ih =>
        cases hA with
        | cons t0 hA =>
          rw [readAtomLines]
          simp only [atom_read h (hs a (by simp)) t0, ih hA (fun b hb => hs b (by simp [hb])), bind, Except.bind, List.map_cons]

end

end Txt
end Magnopy
