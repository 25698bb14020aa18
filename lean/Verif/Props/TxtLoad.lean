import Verif.Lemmas.TxtLoadParams
import Verif.Props.TxtSections
import Verif.Props.TxtCell
import Mathlib.Analysis.SpecialFunctions.Trigonometric.Basic

/-!
# C46: a file that passes verification can be loaded
-/

set_option autoImplicit false
set_option linter.unusedSectionVars false

namespace Magnopy

open Txt

section
variable {K : Type} [Field K]

theorem filter_singleton {α β : Type} [DecidableEq β] {f : α → β} {l : List α} (h : (l.map f).Nodup) {a : α} (ha : a ∈ l) :
    l.filter (fun x => f x == f a) = [a] := by
  induction l with
  | nil => simp at ha
  | cons b l ih =>
    rw [List.map_cons, List.nodup_cons] at h
    rcases List.mem_cons.1 ha with rfl | ha
    · rw [List.filter_cons_of_pos (by simp)]
      refine congrArg _ (List.filter_eq_nil_iff.2 fun x hx he => h.1 ?_)
      rw [← eq_of_beq he]
      exact List.mem_map_of_mem hx
    · rw [List.filter_cons_of_neg, ih h.2 ha]
      intro he
      rw [eq_of_beq he] at h
      exact h.1 (List.mem_map_of_mem ha)

theorem fullname_infix {a : Atom} {w : Str} (h : a.fullname = String.ofList w) : ['_', '_'] <:+: w := by
  have : w = a.name.toList ++ ['_', '_'] ++ (toString a.index).toList := by
    have := congrArg String.toList h
    simpa [Atom.fullname, String.toList_append] using this.symm
  rw [this]
  exact ⟨_, _, rfl⟩

theorem getAtom_name {s : St K} (h : (s.atoms.map Atom.name).Nodup) {w : Str} (hw : ¬ ['_', '_'] <:+: w)
    (hm : String.ofList w ∈ s.atoms.map Atom.name) : ∃ A, s.getAtom (String.ofList w) = .ok A := by
  obtain ⟨A, hA, hn⟩ := List.mem_map.1 hm
  refine ⟨A, ?_⟩
  have : s.atoms.filter (fun a => a.name == String.ofList w || a.fullname == String.ofList w) = [A] := by
    rw [← filter_singleton h hA]
    refine List.filter_congr fun a _ => ?_
    have : (a.fullname == String.ofList w) = false := by
      rw [beq_eq_false_iff_ne]
      exact fun h => hw (fullname_infix h)
    rw [this, Bool.or_false, hn]
  rw [St.getAtom, this]

theorem mkHam_names (L : Lib K) (cell : M3 K) (data : List (AtomData K)) :
    (mkHam L cell data).atoms.map Atom.name = (data.map AtomData.name).map String.ofList := by
  rw [mkHam, St.empty]
  simp only [List.map_map]
  apply List.ext_getElem
  · simp
  · intro i h1 h2
    simp

theorem ofList_inj {a b : Str} (h : String.ofList a = String.ofList b) : a = b := by
  have := congrArg String.toList h
  simpa using this

variable [LinearOrder K] [IsStrictOrderedRing K]

theorem readAll_ok {L : Lib K} (hw : L.Words) (hL : L.Norm) {lines : List Str} (hc : ∀ l ∈ lines, Clean l)
    {found : PyDict Str (ℕ × ℕ)} (hv : verify L lines = .ok (false, found)) (hr : Readable L lines found) :
    ∃ r, readAll L lines found = .ok r := by
  rw [verify] at hv
  simp only at hv
  set sec := sections lines with hsec
  clear_value sec
  obtain ⟨e0, fd⟩ := sec
  simp only at hv
  split at hv
  · exact absurd hv (by simp)
  next names hat =>
  obtain ⟨nm, bad⟩ := names
  simp only [Except.ok.injEq, Prod.mk.injEq, Bool.or_eq_false_iff] at hv
  obtain ⟨⟨⟨⟨-, h1, h2⟩, h3⟩, h4⟩, rfl⟩ := hv
  have bads : ∀ (n : String) (p : ℕ × ℕ), fd.get? (Str.lit n) = some p →
      badSection L fd nm (Str.lit n) (slice lines p) = false := by
    intro n p hp
    have := List.any_eq_false.1 h4 _ (PyDict.mem_of_get? hp)
    simpa using this
  have cl : ∀ p : ℕ × ℕ, ∀ l ∈ slice lines p, Clean l := fun p l hl => hc l (List.mem_of_mem_take (List.mem_of_mem_drop hl))
  -- cell
  obtain ⟨pc, hpc⟩ := Option.ne_none_iff_exists'.1 (fun h => by simp [h] at h1 : fd.get? (Str.lit "cell") ≠ none)
  obtain ⟨pa, hpa⟩ := Option.ne_none_iff_exists'.1 (fun h => by simp [h] at h2 : fd.get? (Str.lit "atoms") ≠ none)
  obtain ⟨⟨cell, scale⟩, hcell⟩ := cell_ok hw (by simpa [badSection] using bads "cell" pc hpc)
  have hdet := hr.volume _ ⟨pc, hpc, rfl⟩ cell scale hcell
  -- atoms
  rw [hpa] at hat
  simp only at hat h3
  subst h3
  obtain ⟨data, hdata, hnames, hnd, hline⟩ := atoms_ok hat (hr.hyphen _ ⟨pa, hpa, rfl⟩) (by rw [det3_eq]; exact hdet) scale
  have hget : ∀ s : St K, s.atoms = (mkHam L cell data).atoms → ∀ w ∈ nm, ∃ A, s.getAtom (String.ofList w) = .ok A := by
    intro s hs w hw'
    have hmap : s.atoms.map Atom.name = nm.map String.ofList := by rw [hs, mkHam_names, hnames]
    refine getAtom_name ?_ ?_ ?_
    · rw [hmap]
      exact hnd.map fun a b => ofList_inj
    · obtain ⟨l, hl, hwl⟩ := hline w hw'
      exact hr.names _ ⟨pa, hpa, rfl⟩ l hl w hwl
    · rw [hmap]
      exact List.mem_map_of_mem hw'
  -- notation
  have hnot : ∃ t, ifNotation L lines fd (mkHam L cell data) = .ok t ∧ t.atoms = (mkHam L cell data).atoms := by
    rw [ifNotation]
    by_cases hh : (hasSection fd "exchange" || hasSection fd "on-site") = true
    · rw [if_pos hh]
      have : ∃ sec', SectionOf lines fd "notation" sec' := by
        rw [Bool.or_eq_true, hasSection, hasSection, Option.isSome_iff_exists, Option.isSome_iff_exists] at hh
        rcases hh with ⟨p, hp⟩ | ⟨p, hp⟩
        · exact hr.notation' _ (Or.inl ⟨p, hp, rfl⟩)
        · exact hr.notation' _ (Or.inr ⟨p, hp, rfl⟩)
      obtain ⟨-, p, hp, rfl⟩ := this
      obtain ⟨t, h5, -, h6⟩ := notation_ok hw (cl p) (s := mkHam L cell data)
        (by simpa [badSection, Str.lit] using bads "notation" p hp) ⟨rfl, rfl⟩
      exact ⟨t, by rw [sectionLines, hp]; exact h5, h6⟩
    · rw [if_neg hh]
      exact ⟨_, rfl, rfl⟩
  obtain ⟨s1, hs1, ha1⟩ := hnot
  have hex : ∃ t, ifSection lines fd "exchange" (fun t => readExchange L t s1) s1 = .ok t ∧ t.atoms = (mkHam L cell data).atoms := by
    rw [ifSection]
    by_cases hh : hasSection fd "exchange" = true
    · rw [if_pos hh]
      rw [hasSection, Option.isSome_iff_exists] at hh
      obtain ⟨p, hp⟩ := hh
      obtain ⟨t, h5, h6⟩ := exchange_ok hw (cl p) (s := s1) (allowed := nm)
        (by simpa [badSection, Str.lit] using bads "exchange" p hp) (hr.joule _ ⟨p, hp, rfl⟩) (hget s1 ha1)
      exact ⟨t, by rw [sectionLines, hp]; exact h5, h6.trans ha1⟩
    · rw [if_neg hh]
      exact ⟨_, rfl, ha1⟩
  obtain ⟨s2, hs2, ha2⟩ := hex
  have hon : ∃ t, ifSection lines fd "on-site" (fun t => readOnSite L t s2) s2 = .ok t := by
    rw [ifSection]
    by_cases hh : hasSection fd "on-site" = true
    · rw [if_pos hh]
      rw [hasSection, Option.isSome_iff_exists] at hh
      obtain ⟨p, hp⟩ := hh
      obtain ⟨t, h5, h6⟩ := onSite_ok hw (cl p) (s := s2) (allowed := nm)
        (by simpa [badSection, Str.lit] using bads "on-site" p hp) (hget s2 ha2)
      exact ⟨t, by rw [sectionLines, hp]; exact h5⟩
    · rw [if_neg hh]
      exact ⟨_, rfl⟩
  obtain ⟨s3, hs3⟩ := hon
  have hco : ∃ t, ifSection lines fd "cone-axis" (fun t => (readCone L cell t).map some) none = .ok t := by
    rw [ifSection]
    by_cases hh : hasSection fd "cone-axis" = true
    · rw [if_pos hh]
      rw [hasSection, Option.isSome_iff_exists] at hh
      obtain ⟨p, hp⟩ := hh
      obtain ⟨t, h5⟩ := cone_ok hw hL (by simpa [badSection, Str.lit] using bads "cone-axis" p hp) hdet
        (hr.cone _ ⟨p, hp, rfl⟩)
      exact ⟨some t, by rw [sectionLines, hp]; simp only [Except.bind, h5]; rfl⟩
    · rw [if_neg hh]
      exact ⟨_, rfl⟩
  obtain ⟨co, hs4⟩ := hco
  have hsp : ∃ t, ifSection lines fd "spiral-vector" (fun t => (readSpiral L cell t).map some) none = .ok t := by
    rw [ifSection]
    by_cases hh : hasSection fd "spiral-vector" = true
    · rw [if_pos hh]
      rw [hasSection, Option.isSome_iff_exists] at hh
      obtain ⟨p, hp⟩ := hh
      obtain ⟨t, h5⟩ := spiral_ok hw (by simpa [badSection, Str.lit] using bads "spiral-vector" p hp) cell
      exact ⟨some t, by rw [sectionLines, hp]; simp only [Except.bind, h5]; rfl⟩
    · rw [if_neg hh]
      exact ⟨_, rfl⟩
  obtain ⟨sp, hs5⟩ := hsp
  have g1 : (sectionLines lines fd "cell").bind (readCell L) = .ok (cell, scale) := by rw [sectionLines, hpc]; exact hcell
  have g2 : (sectionLines lines fd "atoms").bind (readAtoms L cell scale) = .ok data := by rw [sectionLines, hpa]; exact hdata
  refine ⟨⟨cell, data, s3, co, sp⟩, ?_⟩
  rw [readAll]
  have ok_bind : ∀ {α β : Type} (a : α) (f : α → Except PyErr β), (Except.ok a >>= f) = f a := fun _ _ => rfl
  simp only [g1, g2, ok_bind, hs1, hs2, hs3, hs4, hs5]

/-- **C46, partial.** A file that passes verification is loaded, if the additional conditions `Readable` hold.
Full statement: the same without `Readable`; it is false, see `C46_false`. -/
theorem C46_partial {L : Lib K} (hw : L.Words) (hL : L.Norm) (text : List Str) {found : PyDict Str (ℕ × ℕ)}
    (hv : verify L ((Txt.filter text).map Prod.fst) = .ok (false, found))
    (hr : Readable L ((Txt.filter text).map Prod.fst) found) : ∃ r, load L text = .ok r := by
  obtain ⟨r, h⟩ := readAll_ok hw hL (filter_clean text) hv hr
  refine ⟨r, ?_⟩
  rw [load]
  simp only [hv, h]
  rfl

end

/-! ### The conditions are needed -/

namespace TxtExample

/-- `lib` with a `float` that is not sensitive to case. -/
def libLower : Lib ℚ := { lib with float := fun w => float (Str.lower w) }

/-- Sections of an example file. -/
def file (secs : List (List String)) : List Str :=
  ((secs.map fun s => "==========" :: s).flatten ++ ["=========="]).map Str.lit

/-- A cell. -/
def cellSec : List String := ["Cell Angstrom", "1 0 0", "0 1 0", "0 0 2 # the c axis"]

/-- Two atoms. -/
def atomSec : List String := ["Atoms", "Name r1 r2 r3 q", "Fe 0 0 0 -", "Co 0.5 0.5 0.5 1"]

/-- Two atoms, charges not given. -/
def atomSec' : List String := ["Atoms", "Name r1 r2 r3 mass", "Fe 0 0 0 -", "Co 0.5 0.5 0.5 1"]

/-- A notation. -/
def notationSec : List String := ["Notation", "double-counting true", "spin-normalized False", "exchange-factor 0.5", "on-site-factor -1"]

/-- An exchange section. -/
def exchangeSec (unit : String) (name : String) : List String :=
  ["Exchange " ++ unit, "----------", "Fe " ++ name ++ " 1 0 0", "Iso 1", "Dmi 0 0 1", "----------", "Fe Fe 0 1 0", "Matrix",
    "1 0 0", "0 1 0", "0 0 1"]

/-- On-site parameters. -/
def siteSec : List String := ["On-site eV", "----------", "Co", "1 2 3 4 5 6", "----------", "Fe", "0 0 1 0 0 0"]

/-- A cone axis. -/
def coneSec (v : String) : List String := ["Cone-axis", v]

/-- A spiral vector. -/
def spiralSec : List String := ["Spiral-vector Absolute", "0 0 0.5"]

/-- A file with everything. -/
def full : List Str :=
  file [cellSec, atomSec', notationSec, exchangeSec "K" "Co", siteSec, coneSec "1 0 1", spiralSec]

/-- Whether a file is accepted by verification but cannot be loaded. -/
def acceptedNotLoaded (L : Lib ℚ) (text : List Str) : Bool :=
  match verify L ((Txt.filter text).map Prod.fst), load L text with
  | .ok (false, _), .error _ => true
  | _, _ => false

theorem libLower_words : libLower.Words := fun w => by
  show float (Str.lower (Str.lower w)) = float (Str.lower w)
  rw [Str.lower_lower]

theorem libLower_norm : libLower.Norm where
  pos v hv := by
    show 0 < |v 0| + |v 1| + |v 2|
    by_contra h
    apply hv
    funext i
    have h0 := abs_nonneg (v 0)
    have h1 := abs_nonneg (v 1)
    have h2 := abs_nonneg (v 2)
    have : |v i| = 0 := by
      fin_cases i
      · show |v 0| = 0
        linarith
      · show |v 1| = 0
        linarith
      · show |v 2| = 0
        linarith
    exact abs_eq_zero.1 this
  le v := le_rfl
  circle x := by
    show (0 : ℚ) * 0 + 1 * 1 = 1
    norm_num

end TxtExample

open TxtExample in
/-- **C46 is false.** Each of these files passes verification but raises when it is loaded: a hyphen in a column that is
read, no notation section, exchange in Joule, a name that is the full name of another atom, a cell without volume. -/
theorem C46_false :
    acceptedNotLoaded libLower (file [cellSec, atomSec]) = true ∧
    acceptedNotLoaded libLower (file [cellSec, atomSec', siteSec]) = true ∧
    acceptedNotLoaded libLower (file [cellSec, atomSec', notationSec, exchangeSec "J" "Co"]) = true ∧
    acceptedNotLoaded libLower (file [cellSec, ["Atoms", "Name r1 r2 r3", "Fe 0 0 0", "Fe__1 0.5 0.5 0.5"], notationSec,
      exchangeSec "K" "Fe__1"]) = true ∧
    acceptedNotLoaded libLower (file [["Cell", "1 0 0", "0 1 0", "1 1 0"], ["Atoms", "Name x y z", "Fe 0 0 0"]]) = true := by
  decide +kernel

/-! A file with all sections fulfils the conditions of `C46_partial`. -/

namespace TxtExample

/-- The filtered lines. -/
def fullLines : List Str := (Txt.filter full).map Prod.fst

/-- The sections of `full`. -/
def fullFound : PyDict Str (ℕ × ℕ) :=
  [(Str.lit "cell", 1, 5), (Str.lit "atoms", 6, 10), (Str.lit "notation", 11, 16), (Str.lit "exchange", 17, 28),
    (Str.lit "on-site", 29, 36), (Str.lit "cone-axis", 37, 39), (Str.lit "spiral-vector", 40, 42)]

theorem full_accepted : verify libLower fullLines = .ok (false, fullFound) := by decide +kernel

theorem section_full {name : String} {sec : List Str} (h : SectionOf fullLines fullFound name sec) {p : ℕ × ℕ}
    (hp : fullFound.get? (Str.lit name) = some p) : sec = slice fullLines p := by
  obtain ⟨q, hq, rfl⟩ := h
  rw [hp] at hq
  rw [Option.some.inj hq]

theorem full_readable : Readable libLower fullLines fullFound where
  notation' _ _ := ⟨_, (11, 16), by decide +kernel, rfl⟩
  joule sec h := by
    rw [section_full h (p := (17, 28)) (by decide +kernel)]
    have : ((slice fullLines (17, 28)).headD []).split = [Str.lit "Exchange", Str.lit "K"] := by decide +kernel
    rintro (⟨w, u, t, r, h1, h2⟩ | ⟨⟨w, h1⟩, -⟩)
    · rw [this] at h1
      obtain ⟨-, h3⟩ := List.cons.inj h1
      obtain ⟨h4, -⟩ := List.cons.inj h3
      rw [← h4] at h2
      exact absurd h2 (by simp [EnergyUnit.letter, Str.lit, Str.lower])
    · rw [this] at h1
      simp at h1
  hyphen sec h l hl i k hk hr := by
    rw [section_full h (p := (6, 10)) (by decide +kernel)] at hl hk
    have e : ((slice fullLines (6, 10)).getD 1 []).lower.split = ["name", "r1", "r2", "r3", "mass"].map Str.lit := by
      decide +kernel
    rw [e] at hk
    have : ∀ l ∈ (slice fullLines (6, 10)).drop 2, ∀ i < 4, l.split[i]? ≠ some ['-'] := by decide +kernel
    by_cases hi : i < 4
    · exact this l hl i hi
    · match i, hi with
      | 4, _ =>
        have : k = Str.lit "mass" := by simpa using hk.symm
        rw [this] at hr
        exact absurd hr (by decide +kernel)
      | n + 5, _ => simp at hk
  names sec h := by
    rw [section_full h (p := (6, 10)) (by decide +kernel)]
    decide +kernel
  volume sec h cell scale hc := by
    rw [section_full h (p := (1, 5)) (by decide +kernel)] at hc
    have : (readCell libLower (slice fullLines (1, 5))).toOption.all (fun r => decide (det3 r.1 ≠ 0)) = true := by
      decide +kernel
    rw [hc] at this
    rw [← det3_eq]
    simpa [Except.toOption] using this
  cone sec h a b c hs := by
    rw [section_full h (p := (37, 39)) (by decide +kernel)] at hs
    have e : ((slice fullLines (37, 39)).getD 1 []).split = ["1", "0", "1"].map Str.lit := by decide +kernel
    rw [e] at hs
    obtain ⟨h1, -⟩ := List.cons.inj hs
    rw [← h1]
    exact fun hz => absurd hz.1 (by decide +kernel)

end TxtExample

example : ∃ r, load TxtExample.libLower TxtExample.full = .ok r :=
  C46_partial TxtExample.libLower_words TxtExample.libLower_norm _ TxtExample.full_accepted TxtExample.full_readable

/-- The Euclidean length is covered. -/
example (f : Str → Option ℝ) (g : Str → Option ℤ) (p : Char → Bool) (r : M3 ℝ → M3 ℝ) :
    (⟨f, g, p, fun v => √(v 0 ^ 2 + v 1 ^ 2 + v 2 ^ 2), Real.sin, Real.cos, r⟩ : Lib ℝ).Norm where
  pos v hv := by
    apply Real.sqrt_pos.2
    by_contra h
    apply hv
    funext i
    have h0 := sq_nonneg (v 0)
    have h1 := sq_nonneg (v 1)
    have h2 := sq_nonneg (v 2)
    have : v i ^ 2 = 0 := by
      fin_cases i
      · show v 0 ^ 2 = 0
        linarith
      · show v 1 ^ 2 = 0
        linarith
      · show v 2 ^ 2 = 0
        linarith
    exact pow_eq_zero_iff (two_ne_zero) |>.1 this
  le v := by
    apply Real.sqrt_le_iff.2
    refine ⟨by positivity, ?_⟩
    have h0 := abs_nonneg (v 0)
    have h1 := abs_nonneg (v 1)
    have h2 := abs_nonneg (v 2)
    nlinarith [sq_abs (v 0), sq_abs (v 1), sq_abs (v 2), mul_nonneg h0 h1, mul_nonneg h0 h2, mul_nonneg h1 h2]
  circle x := by
    have := Real.sin_sq_add_cos_sq x
    nlinarith

end Magnopy
