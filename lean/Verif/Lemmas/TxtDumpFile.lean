import Verif.Lemmas.TxtDumpVectors

/-!
# Lemmas: the written file as a whole passes verification
-/

set_option autoImplicit false
set_option linter.unusedSectionVars false

namespace Magnopy
namespace Txt

open H5 (Full)

/-! ### Optional sections -/

/-- Sections with their titles, some of them may be absent. -/
abbrev Table := List (Str × Option (List Str))

/-- The sections that are there. -/
def Table.blocks (T : Table) : List (List Str) := T.filterMap Prod.snd

/-- The section with the given title. -/
def Table.find (T : Table) (n : Str) : Option (List Str) := PyDict.get? (T.filterMap fun p => p.2.map fun b => (p.1, b)) n

/-- The titles are those of the sections. -/
def Table.Titled (T : Table) : Prop := ∀ p ∈ T, ∀ b, p.2 = some b → titleOf b = p.1

theorem Table.find_cons (t : Str) (o : Option (List Str)) (T : Table) (n : Str) :
    Table.find ((t, o) :: T) n = if t = n then (match o with | some b => some b | none => T.find n) else T.find n := by
  cases o with
  | none => simp [Table.find]
  | some b =>
    simp only [Table.find, List.filterMap_cons, Option.map_some, PyDict.get?]

theorem Table.find_nil (n : Str) : Table.find [] n = none := rfl

theorem Table.Titled.get? {T : Table} (h : T.Titled) (n : Str) : PyDict.get? (T.blocks.map fun b => (titleOf b, b)) n = T.find n := by
  have : (T.blocks.map fun b => (titleOf b, b)) = T.filterMap fun p => p.2.map fun b => (p.1, b) := by
    rw [Table.blocks, List.map_filterMap]
    refine List.filterMap_congr fun p hp => ?_
    cases e : p.2 with
    | none => rfl
    | some b => simp [h p hp b e]
  rw [this]
  rfl

theorem Table.Titled.nodup {T : Table} (h : T.Titled) (hn : (T.map Prod.fst).Nodup) : (T.blocks.map titleOf).Nodup := by
  have : (T.blocks.map titleOf) = T.filterMap fun p => p.2.map fun _ => p.1 := by
    rw [Table.blocks, List.map_filterMap]
    refine List.filterMap_congr fun p hp => ?_
    cases e : p.2 with
    | none => rfl
    | some b => simp [h p hp b e]
  rw [this]
  clear this h
  induction T with
  | nil => simp
  | cons p T ih =>
    rw [List.map_cons, List.nodup_cons] at hn
    have ih := ih hn.2
    cases e : p.2 with
    | none => simpa [e] using ih
    | some b =>
      simp only [List.filterMap_cons, e, Option.map_some, List.nodup_cons]
      refine ⟨fun hm => hn.1 ?_, ih⟩
      obtain ⟨q, hq, h1⟩ := List.mem_filterMap.1 hm
      cases h2 : q.2 with
      | none => simp [h2] at h1
      | some c =>
        simp only [h2, Option.map_some, Option.some.injEq] at h1
        exact h1 ▸ List.mem_map_of_mem hq

theorem Table.mem_blocks {T : Table} {b : List Str} : b ∈ T.blocks ↔ ∃ p ∈ T, p.2 = some b := by
  rw [Table.blocks, List.mem_filterMap]

/-- The text of an optional section with its separator. -/
def piece (o : Option (List Str)) : List Str :=
  match o with
  | none => []
  | some b => b ++ [separator]

theorem blocksText_eq (sep : Str) (bs : List (List Str)) : blocksText sep bs = sep :: bs.flatMap fun b => b ++ [sep] := by
  induction bs with
  | nil => rfl
  | cons b bs ih =>
    rw [blocksText] at ih ⊢
    rw [List.flatMap_cons, List.append_assoc, ih]
    simp

theorem Table.pieces (T : Table) : (T.blocks.flatMap fun b => b ++ [separator]) = T.flatMap fun p => piece p.2 := by
  induction T with
  | nil => rfl
  | cons p T ih =>
    rw [List.flatMap_cons, ← ih, Table.blocks, List.filterMap_cons]
    cases p.2 with
    | none => rfl
    | some b => rfl

section
variable {K : Type} [Field K] [LinearOrder K]

/-- The sections of a written file. -/
structure Written (F : Fmt K) (L : Lib K) (o : Opts) (x : Full K) where
  /-- "Cell" -/
  C : List Str
  /-- "Atoms" -/
  A : List Str
  /-- "Notation" -/
  N : Option (List Str)
  /-- "Exchange" -/
  E : Option (List Str)
  /-- "On-site" -/
  O : Option (List Str)
  /-- "Cone-axis" -/
  Q : Option (List Str)
  /-- "Spiral-vector" -/
  S : Option (List Str)
  cell : List.Forall₂ Says C [[Str.lit "Cell", Str.lit "Angstrom"], row8 F (x.cell 0), row8 F (x.cell 1), row8 F (x.cell 2)]
  atoms : List.Forall₂ Says A ([Str.lit "Atoms"] :: titleWords :: x.ham.atoms.map (atomWords F x))
  noNote : x.ham.exch = [] ∧ x.ham.onSite = [] → N = none
  note : ¬ (x.ham.exch = [] ∧ x.ham.onSite = []) → ∃ n, N = some n ∧ List.Forall₂ Says n (noteWords F x.ham)
  noExch : x.ham.exch = [] → E = none
  exch : x.ham.exch ≠ [] → ∃ c, E = some (c :: blocksText subSeparator (bondBlocks F o x.ham x.ham.exch)) ∧
    Says c [Str.lit "Exchange", Str.lit "milli-electron-Volt"]
  noSite : x.ham.onSite = [] → O = none
  site : x.ham.onSite ≠ [] → ∃ c, O = some c ∧
    List.Forall₂ Says c ([Str.lit "On-site", Str.lit "milli-electron-Volt"] :: [subSeparator] :: siteWords F x.ham x.ham.onSite)
  noCone : x.cone = none → Q = none
  cone : ∀ v, x.cone = some v → ∃ c, Q = some c ∧ List.Forall₂ Says c [[Str.lit "Cone-axis", Str.lit "absolute"], row8 F v]
  noSpiral : x.spiral = none → S = none
  spiral : ∀ v, x.spiral = some v → ∃ c, S = some c ∧ List.Forall₂ Says c [[Str.lit "Spiral-vector", Str.lit "relative"], row8 F v]

variable {F : Fmt K} {L : Lib K} {o : Opts} {x : Full K}

/-- The table of the sections. -/
def Written.table (P : Written F L o x) : Table :=
  [(Str.lit "cell", some P.C), (Str.lit "atoms", some P.A), (Str.lit "notation", P.N), (Str.lit "exchange", P.E),
    (Str.lit "on-site", P.O), (Str.lit "cone-axis", P.Q), (Str.lit "spiral-vector", P.S)]

theorem dump_parts [IsStrictOrderedRing K] (h : Prints F L) (ho : o.angles = false) (hx : Printable F L x) :
    ∃ text, ∃ P : Written F L o x, dumpText F o x = .ok text ∧ flt text = blocksText separator P.table.blocks := by
  obtain ⟨as, ha, hA⟩ := atoms_lines h ho (x := x) hx.words
  obtain ⟨N, hn, hN⟩ := note_lines h hx.kept
  have eN : ∃ M, flt (if x.ham.exch = [] ∧ x.ham.onSite = [] then [] else N ++ [separator]) = piece M ∧
      (x.ham.exch = [] ∧ x.ham.onSite = [] → M = none) ∧
      (¬ (x.ham.exch = [] ∧ x.ham.onSite = []) → ∃ n, M = some n ∧ List.Forall₂ Says n (noteWords F x.ham)) := by
    by_cases h0 : x.ham.exch = [] ∧ x.ham.onSite = []
    · exact ⟨none, by rw [if_pos h0]; rfl, fun _ => rfl, fun h => absurd h0 h⟩
    · exact ⟨some (flt N), by rw [if_neg h0, flt_append, flt_separator]; rfl, fun h => absurd h h0, fun _ => ⟨_, rfl, flt_lines (hN h0)⟩⟩
  obtain ⟨M, m1, m2, m3⟩ := eN
  have eE : ∃ M, flt (exchangeText F o x.ham) = piece M ∧ (x.ham.exch = [] → M = none) ∧
      (x.ham.exch ≠ [] → ∃ c, M = some (c :: blocksText subSeparator (bondBlocks F o x.ham x.ham.exch)) ∧
        Says c [Str.lit "Exchange", Str.lit "milli-electron-Volt"]) := by
    by_cases h0 : x.ham.exch = []
    · exact ⟨none, by rw [exchangeText, if_pos h0]; rfl, fun _ => rfl, fun h => absurd h0 h⟩
    · obtain ⟨ls, c, e1, e2, e3⟩ := exchange_text (F := F) (o := o) h0 hx.noSelf
      exact ⟨some _, by rw [e1, flt_append, flt_separator, e2]; rfl, fun h => absurd h h0, fun _ => ⟨c, rfl, e3⟩⟩
  obtain ⟨E, e1, e2, e3⟩ := eE
  have eO : ∃ M, flt (onSiteText F x.ham) = piece M ∧ (x.ham.onSite = [] → M = none) ∧
      (x.ham.onSite ≠ [] → ∃ c, M = some c ∧
        List.Forall₂ Says c ([Str.lit "On-site", Str.lit "milli-electron-Volt"] :: [subSeparator] :: siteWords F x.ham x.ham.onSite)) := by
    by_cases h0 : x.ham.onSite = []
    · exact ⟨none, by rw [onSiteText, if_pos h0]; rfl, fun _ => rfl, fun h => absurd h0 h⟩
    · obtain ⟨ls, e1, e2⟩ := onSite_text h hx h0
      exact ⟨some (flt ls), by rw [e1, flt_append, flt_separator]; rfl, fun h => absurd h h0, fun _ => ⟨_, rfl, e2⟩⟩
  obtain ⟨O, o1, o2, o3⟩ := eO
  have eV : ∀ (t : String) (k u : Str) (w : Option (V3 K)), (Str.lit t).split = [k, u] → '#' ∉ Str.lit t →
      ∃ M, flt (vectorText F (Str.lit t) w) = piece M ∧ (w = none → M = none) ∧
        (∀ v, w = some v → ∃ c, M = some c ∧ List.Forall₂ Says c [[k, u], row8 F v]) := by
    intro t k u w h1 h2
    cases w with
    | none => exact ⟨none, rfl, fun _ => rfl, fun v hv => by cases hv⟩
    | some v =>
      obtain ⟨ls, e1, e2⟩ := vector_text h t h1 h2 v
      refine ⟨some (flt ls), by rw [e1, flt_append, flt_separator]; rfl, fun h => (by cases h), fun v' hv => ?_⟩
      cases hv
      exact ⟨_, rfl, e2⟩
  obtain ⟨Q, q1, q2, q3⟩ := eV "Cone-axis absolute" (Str.lit "Cone-axis") (Str.lit "absolute") x.cone (by decide +kernel) (by decide +kernel)
  obtain ⟨S, s1, s2, s3⟩ := eV "Spiral-vector relative" (Str.lit "Spiral-vector") (Str.lit "relative") x.spiral (by decide +kernel) (by decide +kernel)
  have hA' : List.Forall₂ LineOf ([Str.lit "Atoms", atomsTitle o] ++ as) ([Str.lit "Atoms"] :: titleWords :: x.ham.atoms.map (atomWords F x)) := by
    refine .cons (lineOf_spaced ⟨by decide +kernel, by decide +kernel⟩ (by simp)) (.cons (lineOf_spaced ?_ (by simp [titleWords])) hA)
    rw [atomsTitle, ho]
    exact ⟨by decide +kernel, by decide +kernel⟩
  refine ⟨_, ⟨flt (cellText F x.cell), flt ([Str.lit "Atoms", atomsTitle o] ++ as), M, E, O, Q, S, cell_says h _, flt_lines hA', m2, m3, e2, e3, o2, o3,
    q2, q3, s2, s3⟩, by rw [dumpText, ha, hn], ?_⟩
  rw [blocksText_eq, Table.pieces]
  simp only [Written.table, List.flatMap_cons, List.flatMap_nil, List.append_nil, ← m1, ← e1, ← o1, ← q1, ← s1]
  have l0 : flt F.logo = [] := flt_comments h.logo
  have l1 : flt [separator] = [separator] := by rw [flt_separator]; rfl
  have l2 : ([separator, Str.lit "Atoms", atomsTitle o] : List Str) = [separator] ++ [Str.lit "Atoms", atomsTitle o] := rfl
  rw [l2]
  simp only [flt_append, l0, l1, piece]
  simp only [List.append_assoc, List.nil_append, List.singleton_append, List.cons_append]

theorem title_says {c k : Str} {ws : List Str} {b : List Str} (h : Says c (k :: ws)) : titleOf (c :: b) = k.lower := by
  rw [titleOf, List.headD_cons, keyword, Str.first, h.split]; rfl

theorem title_says' {b : List Str} {k : Str} {ws : List Str} {W : List (List Str)} (h : List.Forall₂ Says b ((k :: ws) :: W)) : titleOf b = k.lower := by
  cases h with
  | cons h _ => exact title_says h

theorem Written.titled (P : Written F L o x) : P.table.Titled := by
  intro p hp b hb
  simp only [Written.table, List.mem_cons, List.not_mem_nil, or_false] at hp
  rcases hp with rfl | rfl | rfl | rfl | rfl | rfl | rfl
  · cases hb
    rw [title_says' P.cell]; dsimp only; decide +kernel
  · cases hb
    rw [title_says' P.atoms]; dsimp only; decide +kernel
  · by_cases h0 : x.ham.exch = [] ∧ x.ham.onSite = []
    · have := P.noNote h0
      simp [this] at hb
    · obtain ⟨n, e, h⟩ := P.note h0
      rw [show P.N = some b from hb] at e
      cases e
      rw [title_says' h]; dsimp only; decide +kernel
  · by_cases h0 : x.ham.exch = []
    · have := P.noExch h0
      simp [this] at hb
    · obtain ⟨n, e, h⟩ := P.exch h0
      rw [show P.E = some b from hb] at e
      cases e
      rw [title_says h]; dsimp only; decide +kernel
  · by_cases h0 : x.ham.onSite = []
    · have := P.noSite h0
      simp [this] at hb
    · obtain ⟨n, e, h⟩ := P.site h0
      rw [show P.O = some b from hb] at e
      cases e
      rw [title_says' h]; dsimp only; decide +kernel
  · cases h0 : x.cone with
    | none =>
      have := P.noCone h0
      simp [this] at hb
    | some v =>
      obtain ⟨n, e, h⟩ := P.cone v h0
      rw [show P.Q = some b from hb] at e
      cases e
      rw [title_says' h]; dsimp only; decide +kernel
  · cases h0 : x.spiral with
    | none =>
      have := P.noSpiral h0
      simp [this] at hb
    | some v =>
      obtain ⟨n, e, h⟩ := P.spiral v h0
      rw [show P.S = some b from hb] at e
      cases e
      rw [title_says' h]; dsimp only; decide +kernel

theorem Written.find (P : Written F L o x) : P.table.find (Str.lit "cell") = some P.C ∧ P.table.find (Str.lit "atoms") = some P.A ∧
    P.table.find (Str.lit "notation") = P.N ∧ P.table.find (Str.lit "exchange") = P.E ∧ P.table.find (Str.lit "on-site") = P.O ∧
    P.table.find (Str.lit "cone-axis") = P.Q ∧ P.table.find (Str.lit "spiral-vector") = P.S := by
  have n : ∀ {a b : String}, Str.lit a = Str.lit b ↔ a = b := fun {a b} => String.toList_inj
  simp only [Written.table, Table.find_cons, Table.find_nil, n, reduceIte, String.reduceEq]
  refine ⟨trivial, trivial, ?_, ?_, ?_, ?_, ?_⟩ <;> (split <;> simp [*])

variable [IsStrictOrderedRing K]

theorem says_sep {n : List Str} {W : List (List Str)} (hn : List.Forall₂ Says n W)
    (hW : ∀ w ∈ W, ∃ d t ws, w = (d :: t) :: ws ∧ d ≠ '-' ∧ d ≠ '=') : ∀ l ∈ n, NotSep '=' l := by
  induction hn with
  | nil => simp
  | @cons c w n W u _ ih =>
    intro l hl
    rcases List.mem_cons.1 hl with rfl | hl
    · obtain ⟨d, t, ws, rfl, h1, h2⟩ := hW w (by simp)
      exact (notSep_lit u h1 h2).2
    · exact ih (fun w hw => hW w (by simp [hw])) l hl

theorem note_sep {b : List Str} (hn : List.Forall₂ Says b (noteWords F x.ham)) : b ≠ [] ∧ ∀ l ∈ b, NotSep '=' l := by
  refine ⟨?_, says_sep hn ?_⟩
  · rw [noteWords] at hn
    rintro rfl
    cases hn
  · intro w hw
    rw [noteWords, List.mem_append, List.mem_append] at hw
    rcases hw with (hw | hw) | hw
    · simp only [List.mem_cons, List.not_mem_nil, or_false] at hw
      rcases hw with rfl | rfl
      · exact ⟨'N', Str.lit "otation", _, rfl, by decide, by decide⟩
      · exact ⟨'S', Str.lit "pin-normalized", _, rfl, by decide, by decide⟩
    · rw [exchangeNote] at hw
      split at hw
      · simp at hw
      · simp only [List.mem_cons, List.not_mem_nil, or_false] at hw
        rcases hw with rfl | rfl
        · exact ⟨'D', Str.lit "ouble-counting", _, rfl, by decide, by decide⟩
        · exact ⟨'E', Str.lit "xchange-factor", _, rfl, by decide, by decide⟩
    · rw [siteNote] at hw
      split at hw
      · simp at hw
      · simp only [List.mem_cons, List.not_mem_nil, or_false] at hw
        subst hw
        exact ⟨'O', Str.lit "n-site-factor", _, rfl, by decide, by decide⟩

/-- A section is not empty and has no lines like separators. -/
theorem Written.lines (h : Prints F L) (hw : L.Words) (hx : Printable F L x) (P : Written F L o x) : ∀ b ∈ P.table.blocks, b ≠ [] ∧ ∀ l ∈ b, NotSep '=' l := by
  have row : ∀ {c : Str} {v : V3 K}, Says c (row8 F v) → NotSep '=' c := fun hc => (notSep_word h hc).2
  have vec : ∀ {d : Char} {t u : Str} {v : V3 K} {c : List Str}, d ≠ '-' → d ≠ '=' → List.Forall₂ Says c [[d :: t, u], row8 F v] →
      c ≠ [] ∧ ∀ l ∈ c, NotSep '=' l := by
    intro d t u v c h1 h2 hc
    cases hc with
    | cons t0 hc =>
    cases hc with
    | cons t1 hc =>
    cases hc
    refine ⟨by simp, fun l hl => ?_⟩
    simp only [List.mem_cons, List.not_mem_nil, or_false] at hl
    rcases hl with rfl | rfl
    · exact (notSep_lit t0 h1 h2).2
    · exact row t1
  intro b hb
  obtain ⟨p, hp, hb⟩ := Table.mem_blocks.1 hb
  simp only [Written.table, List.mem_cons, List.not_mem_nil, or_false] at hp
  rcases hp with rfl | rfl | rfl | rfl | rfl | rfl | rfl
  · cases hb
    have hc := P.cell
    revert hc
    generalize P.C = C
    intro hc
    cases hc with
    | cons t0 hc =>
    cases hc with
    | cons t1 hc =>
    cases hc with
    | cons t2 hc =>
    cases hc with
    | cons t3 hc =>
    cases hc
    refine ⟨by simp, fun l hl => ?_⟩
    simp only [List.mem_cons, List.not_mem_nil, or_false] at hl
    rcases hl with rfl | rfl | rfl | rfl
    · exact (notSep_lit (d := 'C') (t := Str.lit "ell") t0 (by decide) (by decide)).2
    · exact row t1
    · exact row t2
    · exact row t3
  · cases hb
    have hc := P.atoms
    revert hc
    generalize P.A = A
    intro hc
    cases hc with
    | cons t0 hc =>
    cases hc with
    | cons t1 hc =>
    rename_i c0 c1 cs
    refine ⟨by simp, fun l hl => ?_⟩
    simp only [List.mem_cons] at hl
    rcases hl with rfl | rfl | hl
    · exact (notSep_lit (d := 'A') (t := Str.lit "toms") t0 (by decide) (by decide)).2
    · exact (notSep_lit (d := 'n') (t := Str.lit "ame") (ws := ["r1", "r2", "r3", "Sx", "Sy", "Sz"].map Str.lit) t1 (by decide) (by decide)).2
    · have : ∀ {as : List Atom} {cs : List Str}, (∀ a ∈ as, a ∈ x.ham.atoms) → List.Forall₂ Says cs (as.map (atomWords F x)) →
          ∀ l ∈ cs, NotSep '=' l := by
        intro as
        induction as with
        | nil => intro cs _ hcs; cases hcs; simp
        | cons a as ih =>
          intro cs hm hcs
          cases hcs with
          | cons u hcs =>
          intro l hl
          rcases List.mem_cons.1 hl with rfl | hl
          · exact (notSep_name h hx (hm a (by simp)) u).2
          · exact ih (fun b hb => hm b (by simp [hb])) hcs l hl
      exact this (fun a ha => ha) hc l hl
  · by_cases h0 : x.ham.exch = [] ∧ x.ham.onSite = []
    · have := P.noNote h0
      simp [this] at hb
    · obtain ⟨n, e, hn⟩ := P.note h0
      rw [show P.N = some b from hb] at e
      cases e
      exact note_sep hn
  · by_cases h0 : x.ham.exch = []
    · have := P.noExch h0
      simp [this] at hb
    · obtain ⟨n, e, hn⟩ := P.exch h0
      rw [show P.E = some b from hb] at e
      cases e
      exact ⟨by simp, exchange_sep h hx hn⟩
  · by_cases h0 : x.ham.onSite = []
    · have := P.noSite h0
      simp [this] at hb
    · obtain ⟨n, e, hn⟩ := P.site h0
      rw [show P.O = some b from hb] at e
      cases e
      have := (onSite_good h hw hx h0 hn).2
      exact ⟨(by rintro rfl; cases hn), this⟩
  · cases h0 : x.cone with
    | none =>
      have := P.noCone h0
      simp [this] at hb
    | some v =>
      obtain ⟨n, e, hn⟩ := P.cone v h0
      rw [show P.Q = some b from hb] at e
      cases e
      exact vec (d := 'C') (t := Str.lit "one-axis") (by decide) (by decide) hn
  · cases h0 : x.spiral with
    | none =>
      have := P.noSpiral h0
      simp [this] at hb
    | some v =>
      obtain ⟨n, e, hn⟩ := P.spiral v h0
      rw [show P.S = some b from hb] at e
      cases e
      exact vec (d := 'S') (t := Str.lit "piral-vector") (by decide) (by decide) hn

theorem Written.isSome (P : Written F L o x) : P.E.isSome = decide (x.ham.exch ≠ []) ∧ P.O.isSome = decide (x.ham.onSite ≠ []) := by
  constructor
  · by_cases h0 : x.ham.exch = []
    · rw [P.noExch h0]; simp [h0]
    · obtain ⟨n, e, -⟩ := P.exch h0
      rw [e]; simp [h0]
  · by_cases h0 : x.ham.onSite = []
    · rw [P.noSite h0]; simp [h0]
    · obtain ⟨n, e, -⟩ := P.site h0
      rw [e]; simp [h0]

/-- The written file is accepted. -/
theorem Written.verify (h : Prints F L) (hw : L.Words) (ho : o.Complete) (hx : Printable F L x) (P : Written F L o x) :
    ∃ found, Txt.verify L (blocksText separator P.table.blocks) = .ok (false, found) ∧
      ∀ n, (found.get? n).map (slice (blocksText separator P.table.blocks)) = P.table.find n := by
  obtain ⟨found, f1, f2, f3⟩ := sections_blocks (P.lines h hw hx) (P.titled.nodup (by
    simp only [Written.table, List.map_cons, List.map_nil]; decide +kernel))
  replace f2 : ∀ n, (found.get? n).map (slice (blocksText separator P.table.blocks)) = P.table.find n :=
    fun n => (f2 n).trans (P.titled.get? n)
  refine ⟨found, ?_, f2⟩
  set text := blocksText separator P.table.blocks with ht
  obtain ⟨p1, p2, p3, p4, p5, p6, p7⟩ := P.find
  have fS : ∀ n, (found.get? n).isSome = (P.table.find n).isSome := fun n => by rw [← f2]; simp
  have c1 : (found.get? (Str.lit "cell")).isNone = false := by
    have := fS (Str.lit "cell")
    rw [p1] at this
    rw [Option.isNone_eq_false_iff, this]
    rfl
  obtain ⟨pa, ha⟩ : ∃ pa, found.get? (Str.lit "atoms") = some pa := by
    have := fS (Str.lit "atoms")
    rw [p2] at this
    exact Option.isSome_iff_exists.1 this
  have ha' : slice text pa = P.A := by
    have := f2 (Str.lit "atoms")
    rw [ha, p2] at this
    exact Option.some.inj this
  have hE := (fS (Str.lit "exchange")).trans ((congrArg Option.isSome p4).trans P.isSome.1)
  have hO := (fS (Str.lit "on-site")).trans ((congrArg Option.isSome p5).trans P.isSome.2)
  have hany : (found.any fun p => badSection L found (x.ham.atoms.map fun a => a.name.toList) p.1 (slice text p.2)) = false := by
    rw [f3 (badSection L found (x.ham.atoms.map fun a => a.name.toList)), List.any_eq_false]
    intro b hb
    obtain ⟨p, hp, hb⟩ := Table.mem_blocks.1 hb
    rw [P.titled p hp b hb, Bool.not_eq_true, badSection]
    simp only [hE, hO]
    have n : ∀ {a b : String}, Str.lit a = Str.lit b ↔ a = b := fun {a b} => String.toList_inj
    simp only [Written.table, List.mem_cons, List.not_mem_nil, or_false] at hp
    rcases hp with rfl | rfl | rfl | rfl | rfl | rfl | rfl <;> simp only [n, reduceIte, String.reduceEq]
    · cases hb
      exact cell_good h hw P.cell
    · by_cases h0 : x.ham.exch = [] ∧ x.ham.onSite = []
      · have := P.noNote h0
        simp [this] at hb
      · obtain ⟨n, e, hn⟩ := P.note h0
        rw [show P.N = some b from hb] at e
        cases e
        exact note_good hw hx h0 hn
    · by_cases h0 : x.ham.exch = []
      · have := P.noExch h0
        simp [this] at hb
      · obtain ⟨n, e, hn⟩ := P.exch h0
        rw [show P.E = some b from hb] at e
        cases e
        exact exchange_good h hw ho hx h0 hn
    · by_cases h0 : x.ham.onSite = []
      · have := P.noSite h0
        simp [this] at hb
      · obtain ⟨n, e, hn⟩ := P.site h0
        rw [show P.O = some b from hb] at e
        cases e
        exact (onSite_good h hw hx h0 hn).1
    · cases h0 : x.cone with
      | none =>
        have := P.noCone h0
        simp [this] at hb
      | some v =>
        obtain ⟨n, e, hn⟩ := P.cone v h0
        rw [show P.Q = some b from hb] at e
        cases e
        exact (vector_good h hw (by decide +kernel) hn).1
    · cases h0 : x.spiral with
      | none =>
        have := P.noSpiral h0
        simp [this] at hb
      | some v =>
        obtain ⟨n, e, hn⟩ := P.spiral v h0
        rw [show P.S = some b from hb] at e
        cases e
        exact (vector_good h hw (by decide +kernel) hn).2
  rw [Txt.verify, f1]
  simp only [ha, ha', atoms_good h hx P.atoms, c1, hany]
  rfl

end

end Txt
end Magnopy
