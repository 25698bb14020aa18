import Verif.Lemmas.DispersionText
import Verif.Lemmas.HistorySample
import Verif.Props.DispersionScript

/-!
# C87: the text of the files of `magnopy-magnon-dispersion`
-/

set_option autoImplicit false
set_option linter.unusedSectionVars false

namespace Magnopy.DispScript

open History Txt Minimize MagnonObj

variable {F : NumFmt ℝ} {float : Str → Option ℝ} {P : Parts} {Kp : Type}

/-! ### The table -/

/-- A list of rows given by their places. -/
theorem rows_data {rows : List (List MagnonObj.Entry)} {n : ℕ} (hl : rows.length = n) (R : ℕ → RowData → Prop)
    (h : ∀ m, m < n → ∃ d, rows[m]? = some d.entries ∧ R m d) :
    ∃ l : List RowData, rows = l.map RowData.entries ∧ ∀ (m : ℕ) (hm : m < l.length), R m l[m] := by
  classical
  choose d hd hR using h
  refine ⟨(List.finRange n).map fun i : Fin n => d i i.2, List.ext_getElem (by simp [hl]) fun i h1 h2 => ?_, fun m hm => ?_⟩
  · have := hd i (by omega)
    rw [List.getElem?_eq_getElem h1] at this
    simpa using this
  · simp only [List.length_map, List.length_finRange] at hm
    simpa using hR m hm

/-- What the rows are. -/
theorem rows_text {o : MagnonObj} {cell : ℕ → M3 ℝ} {sol : Mat o.N → Option ((Fin o.N ⊕ Fin o.N → ℂ) × Mat o.N)} {junk : Mat o.N}
    {flat : List ℝ} {rel points : List (V3 ℝ)} (h1 : flat.length = points.length) (h2 : rel.length = points.length)
    {rows : List (List MagnonObj.Entry)} (hl : rows.length = points.length)
    (h : ∀ (m : ℕ) (_ : m < points.length), rows[m]? = some (row flat[m] (o.omega cell sol junk false false false points[m]).1.1 rel[m] points[m])) :
    ∃ l : List RowData, rows = l.map RowData.entries ∧ ∀ (m : ℕ) (hm : m < points.length) (hm' : m < l.length),
      (o.omega cell sol junk false false false points[m]).1.1 = reals l[m].en ∧ l[m].x = flat[m] ∧ l[m].rel = rel[m] ∧ l[m].k = points[m] := by
  obtain ⟨l, e1, e2⟩ := rows_data hl (fun m d => ∀ (hm : m < points.length),
    (o.omega cell sol junk false false false points[m]).1.1 = reals d.en ∧ d.x = flat[m] ∧ d.rel = rel[m] ∧ d.k = points[m]) (by
      intro m hm
      obtain ⟨en, he⟩ := omegaOf_real sol junk (o.callH cell points[m]).1
      refine ⟨⟨flat[m], en, rel[m], points[m]⟩, ?_, fun _ => ⟨he, rfl, rfl, rfl⟩⟩
      rw [h m hm, RowData.entries, ← he]
      rfl)
  exact ⟨l, e1, fun m hm hm' => e2 m hm' hm⟩

/-- **C87 (the data file is found).** Without `join_output` the last line of the info file is the absolute name of the data
file. -/
theorem C87_info (input : Str) (cols : List Str) (data : Str) (hd : '\n' ∉ data) :
    (Logo.linesOf (fileText F P (.info input cols (some data)))).getLast? = some data := by
  rw [fileText, Option.getD_some, linesOf_break, linesOf_one hd, List.getLast?_append]
  rfl

/-- **C87 (the data file).** Under the conditions of C75 and without `join_output`: the data file can be read as rows of
numbers, one for each point of the path in the order of the path; the numbers of a row are the coordinate along the path,
the energies that `omega` of a new object returns for the point, and its relative and absolute coordinates.  Coordinates are
right to eight digits after the point and energies to nine significant digits.  The last line of the info file is the absolute
name of the data file. -/
theorem C87_data (hF : Reads F float) (env : Env Ham Kp) {order : List Atom → List Atom} (hord : ∀ l, (order l).Perm l)
    (solve : ∀ N, Mat N → Option ((Fin N ⊕ Fin N → ℂ) × Mat N)) (junk : ∀ N, Mat N)
    (henv : env.omegas = compute order solve junk) (args : Args) (w : World) {h0 h : Ham} {kp : Kp} {spin : Atom → ℝ}
    (hload : env.load args.spinham args.format = .ok h0) (hstd : env.standardize h0 = .ok h)
    (hkp : kpointsOf env args h = .ok kp) (hr : MagnonReady order h.spinVec h.st spin)
    (hflat : (env.flat kp).length = (env.points kp).length) (hrel : (env.relative kp).length = (env.points kp).length)
    (hne : env.points kp ≠ []) (hs : args.saveTxt = true) (hj : args.join = false) :
    ∃ o t w' f rows, init order h.lat h.pos h.spinVec h.st = (.ok o, t) ∧ manager env args w = .ok w' ∧
      w'.files.get? (outputName args.spinham args.seed ++ Str.lit "_data.txt") = some f ∧
      (∃ g, w'.files.get? (outputName args.spinham args.seed ++ Str.lit "_info.txt") = some g ∧
        let data := env.abspath (outputName args.spinham args.seed ++ Str.lit "_data.txt")
        ('\n' ∉ data → (Logo.linesOf (fileText F P g)).getLast? = some data)) ∧
      readRows float (fileText F P f) = some rows ∧ rows.length = (env.points kp).length ∧
      ∀ (m : ℕ) (hm : m < (env.points kp).length), ∃ ys en, rows[m]? = some ys ∧
        (o.omega t.cell (solve o.N) (junk o.N) false false false (env.points kp)[m]).1.1 = en.map (fun e : ℝ => some (e : ℂ)) ∧
        RowRead ys (env.flat kp)[m] en (env.relative kp)[m] (env.points kp)[m] := by
  obtain ⟨o, t, w', header, rows, h1, h2, h3, h4, h5, h6, -⟩ :=
    C75_table env hord solve junk henv args w hload hstd hkp hr hflat hrel hne hs
  rw [hj, if_neg Bool.false_ne_true] at h4
  obtain ⟨rfl, hinfo⟩ := h4
  rw [tableSuffix, hj, if_neg Bool.false_ne_true] at h3
  obtain ⟨l, rfl, h7⟩ := rows_text hflat hrel h5 h6
  rw [List.length_map] at h5
  obtain ⟨rs, h8, h9⟩ := read_table hF P l
  refine ⟨o, t, w', _, rs, h1, h2, h3, ⟨_, hinfo, fun hd => C87_info _ _ _ hd⟩, h8, h9.length_eq.trans h5, fun m hm => ?_⟩
  have hl : m < l.length := by omega
  have hr : m < rs.length := by rw [h9.length_eq]; exact hl
  obtain ⟨e1, e2, e3, e4⟩ := h7 m hm hl
  refine ⟨rs[m], l[m].en, List.getElem?_eq_getElem hr, e1, ?_⟩
  have := h9.get hr hl
  simp only [List.get_eq_getElem, e2, e3, e4] at this
  exact this

/-- **C87 (one file).** With `join_output`: the file is the description, whose last line has the titles of the columns, and
then a table as in `C87_data`. -/
theorem C87_join (hF : Reads F float) (env : Env Ham Kp) {order : List Atom → List Atom} (hord : ∀ l, (order l).Perm l)
    (solve : ∀ N, Mat N → Option ((Fin N ⊕ Fin N → ℂ) × Mat N)) (junk : ∀ N, Mat N)
    (henv : env.omegas = compute order solve junk) (args : Args) (w : World) {h0 h : Ham} {kp : Kp} {spin : Atom → ℝ}
    (hload : env.load args.spinham args.format = .ok h0) (hstd : env.standardize h0 = .ok h)
    (hkp : kpointsOf env args h = .ok kp) (hr : MagnonReady order h.spinVec h.st spin)
    (hflat : (env.flat kp).length = (env.points kp).length) (hrel : (env.relative kp).length = (env.points kp).length)
    (hne : env.points kp ≠ []) (hs : args.saveTxt = true) (hj : args.join = true) :
    ∃ o t w' f body rows, init order h.lat h.pos h.spinVec h.st = (.ok o, t) ∧ manager env args w = .ok w' ∧
      w'.files.get? (outputName args.spinham args.seed ++ Str.lit ".txt") = some f ∧
      fileText F P f = infoText P (env.abspath args.spinham) (names o.N) ++ '\n' :: body ∧
      readRows float body = some rows ∧ rows.length = (env.points kp).length ∧
      ∀ (m : ℕ) (hm : m < (env.points kp).length), ∃ ys en, rows[m]? = some ys ∧
        (o.omega t.cell (solve o.N) (junk o.N) false false false (env.points kp)[m]).1.1 = en.map (fun e : ℝ => some (e : ℂ)) ∧
        RowRead ys (env.flat kp)[m] en (env.relative kp)[m] (env.points kp)[m] := by
  obtain ⟨o, t, w', header, rows, h1, h2, h3, h4, h5, h6, -⟩ :=
    C75_table env hord solve junk henv args w hload hstd hkp hr hflat hrel hne hs
  rw [hj, if_pos rfl] at h4
  subst h4
  rw [tableSuffix, hj, if_pos rfl] at h3
  obtain ⟨l, rfl, h7⟩ := rows_text hflat hrel h5 h6
  rw [List.length_map] at h5
  obtain ⟨rs, h8, h9⟩ := read_table hF P l
  refine ⟨o, t, w', _, fileText F P (.table none (l.map RowData.entries)), rs, h1, h2, h3, ?_, h8, h9.length_eq.trans h5,
    fun m hm => ?_⟩
  · rw [fileText, fileText]
    simp only [List.nil_append, List.append_assoc, List.cons_append]
  have hl : m < l.length := by omega
  have hr : m < rs.length := by rw [h9.length_eq]; exact hl
  obtain ⟨e1, e2, e3, e4⟩ := h7 m hm hl
  refine ⟨rs[m], l[m].en, List.getElem?_eq_getElem hr, e1, ?_⟩
  have := h9.get hr hl
  simp only [List.get_eq_getElem, e2, e3, e4] at this
  exact this

/-- Full statement: the file with the table can be read as rows of numbers, with and without `join_output`. -/
def C87_readable_statement (F : NumFmt ℝ) (float : Str → Option ℝ) (P : Parts) : Prop :=
  ∀ f : File, (∃ header rows, f = .table header rows) → ∃ rows, readRows float (fileText F P f) = some rows

theorem infoText_start (P : Parts) (input : Str) (cols : List Str) : ∃ b, infoText P input cols = separator ++ '\n' :: b := by
  unfold infoText
  generalize separator = sep
  simp only [List.append_assoc, List.cons_append]
  exact ⟨_, rfl⟩

/-- **C87 is false of the code with `join_output`.** The description is written without comment signs (line 178), so that a
file with a description is never a table of numbers, whatever is in it. -/
theorem C87_join_false (hsep : float separator = none) (input : Str) (cols : List Str) (rows : List (List MagnonObj.Entry)) :
    readRows float (fileText F P (.table (some (input, cols)) rows)) = none := by
  have hone : OneWord separator := ⟨by decide, by decide⟩
  obtain ⟨b, hb⟩ : ∃ b, fileText F P (.table (some (input, cols)) rows) = separator ++ '\n' :: b := by
    obtain ⟨b, hb⟩ := infoText_start P input cols
    rw [fileText]
    simp only [hb, List.append_assoc, List.cons_append]
    exact ⟨_, rfl⟩
  rw [readRows, hb, linesOf_break, linesOf_one hone.noBreak, List.map_append, List.map_singleton, hone.split, List.singleton_append,
    List.filter_cons_of_pos (by simp), List.mapM_cons]
  simp [hsep]

theorem C87_readable_false (hsep : float separator = none) : ¬ C87_readable_statement F float P := fun h => by
  obtain ⟨rows, hr⟩ := h (.table (some ([], [])) []) ⟨_, _, rfl⟩
  rw [C87_join_false hsep] at hr
  cases hr

/-! ### The description -/

theorem infoText_end (P : Parts) (input : Str) (cols : List Str) : ∃ a, infoText P input cols = a ++ '\n' :: titlesText cols := by
  unfold infoText
  generalize separator = sep
  exact ⟨_, rfl⟩

theorem omega_oneWord (i : ℕ) : OneWord (Str.lit s!"omega_{i}") := by
  have h : Str.lit s!"omega_{i}" = Str.lit "omega_" ++ Nat.toDigits 10 i := by
    simp [Str.lit, toString, Nat.repr]
  rw [h]
  refine ⟨by simp [Str.lit], fun c hc => ?_⟩
  rcases List.mem_append.1 hc with h1 | h1
  · have : ∀ c ∈ Str.lit "omega_", Str.isSpace c = false := by decide
    exact this c h1
  · exact (digits_oneWord i).2 c h1

theorem titles_eq (n : ℕ) : titlesText (names n) = Str.lit "Coordinate" ++
    ((List.range n).flatMap fun i => ' ' :: padL 14 (Str.lit s!"omega_{i}")) ++
    Str.lit "      b1 (rel)   b2 (rel)   b3 (rel)     k_x (abs)  k_y (abs)  k_z (abs)" := by
  rw [titlesText, names_length]
  have e2 : (names n).tail.take (n + 7 - 7) = (List.range n).map fun i => Str.lit s!"omega_{i}" := by
    rw [Nat.add_sub_cancel]
    have : (names n).tail = ((List.range n).map fun i => Str.lit s!"omega_{i}") ++
        ([Str.lit "b1 (rel)", Str.lit "b2 (rel)", Str.lit "b3 (rel)"] ++
          [Str.lit "k_x (abs)", Str.lit "k_y (abs)", Str.lit "k_z (abs)"]) := by
      rw [names, List.append_assoc, List.append_assoc]
      rfl
    rw [this, List.take_left' (by simp)]
  have e3 : (names n).drop (n + 7 - 6) = [Str.lit "b1 (rel)", Str.lit "b2 (rel)", Str.lit "b3 (rel)"] ++
      [Str.lit "k_x (abs)", Str.lit "k_y (abs)", Str.lit "k_z (abs)"] := by
    have : n + 7 - 6 = ([Str.lit "Coordinate"] ++ (List.range n).map fun i => Str.lit s!"omega_{i}").length := by simp
    rw [this, names, List.append_assoc _ [_, _, _], List.drop_left]
  have e4 : (names n).drop (n + 7 - 3) = [Str.lit "k_x (abs)", Str.lit "k_y (abs)", Str.lit "k_z (abs)"] := by
    have : n + 7 - 3 = ([Str.lit "Coordinate"] ++ ((List.range n).map fun i => Str.lit s!"omega_{i}") ++
      [Str.lit "b1 (rel)", Str.lit "b2 (rel)", Str.lit "b3 (rel)"]).length := by simp
    rw [this, names, List.drop_left]
  rw [e2, e3, e4, List.flatMap_map, List.append_assoc]
  congr 1

theorem titles_noBreak (n : ℕ) : '\n' ∉ titlesText (names n) := by
  rw [titles_eq]
  have h1 : '\n' ∉ Str.lit "Coordinate" := by decide
  have h2 : '\n' ∉ Str.lit "      b1 (rel)   b2 (rel)   b3 (rel)     k_x (abs)  k_y (abs)  k_z (abs)" := by decide
  have h3 : ∀ i : ℕ, '\n' ∉ Str.lit s!"omega_{i}" := fun i => (omega_oneWord i).noBreak
  intro h
  rcases List.mem_append.1 h with h | h
  · rcases List.mem_append.1 h with h | h
    · exact h1 h
    · obtain ⟨i, -, hi⟩ := List.mem_flatMap.1 h
      rw [List.mem_cons, padL, List.mem_append] at hi
      rcases hi with hi | hi | hi
      · revert hi; decide
      · have := List.eq_of_mem_replicate hi
        revert this; decide
      · exact h3 i hi
  · exact h2 h

/-- **C87 (titles).** The last line of the description has the titles of the columns: its words are "Coordinate", the names of
the energies in order, and two words for each coordinate.  So it has six words more than the rows have numbers. -/
theorem C87_titles (input : Str) (n : ℕ) :
    ∃ l, (Logo.linesOf (infoText P input (names n))).getLast? = some l ∧
      l.split = [Str.lit "Coordinate"] ++ ((List.range n).map fun i => Str.lit s!"omega_{i}") ++
        ["b1", "(rel)", "b2", "(rel)", "b3", "(rel)", "k_x", "(abs)", "k_y", "(abs)", "k_z", "(abs)"].map Str.lit ∧
      l.split.length = (names n).length + 6 := by
  have hb := titles_noBreak n
  have hw : (titlesText (names n)).split = [Str.lit "Coordinate"] ++ ((List.range n).map fun i => Str.lit s!"omega_{i}") ++
      ["b1", "(rel)", "b2", "(rel)", "b3", "(rel)", "k_x", "(abs)", "k_y", "(abs)", "k_z", "(abs)"].map Str.lit := by
    rw [titles_eq]
    have key : ∀ (l : List ℕ) (s : Str), (Str.split (s ++ l.flatMap fun i => ' ' :: padL 14 (Str.lit s!"omega_{i}"))) =
        s.split ++ l.map fun i => Str.lit s!"omega_{i}" := by
      intro l
      induction l with
      | nil => intro s; simp
      | cons i l ih =>
        intro s
        rw [List.flatMap_cons, ← List.append_assoc, ih, split_cons, split_padL _ (omega_oneWord i)]
        simp
    have e : Str.lit "      b1 (rel)   b2 (rel)   b3 (rel)     k_x (abs)  k_y (abs)  k_z (abs)" =
      ' ' :: Str.lit "     b1 (rel)   b2 (rel)   b3 (rel)     k_x (abs)  k_y (abs)  k_z (abs)" := rfl
    rw [e, split_cons, key]
    have e1 : (Str.lit "Coordinate").split = [Str.lit "Coordinate"] := by decide
    have e2 : (Str.lit "     b1 (rel)   b2 (rel)   b3 (rel)     k_x (abs)  k_y (abs)  k_z (abs)").split =
        ["b1", "(rel)", "b2", "(rel)", "b3", "(rel)", "k_x", "(abs)", "k_y", "(abs)", "k_z", "(abs)"].map Str.lit := by
      decide +kernel
    rw [e1, e2]
  refine ⟨titlesText (names n), ?_, hw, ?_⟩
  · obtain ⟨a, ha⟩ := infoText_end P input (names n)
    rw [ha, linesOf_break, linesOf_one hb, List.getLast?_append, List.getLast?_singleton, Option.some_or]
  · rw [hw, names_length]
    simp

theorem lines_end {q : Str} (hq : '\n' ∉ q) (p : Str) :
    ∃ a l, Logo.linesOf p = a ++ [l] ∧ Logo.linesOf (p ++ q) = a ++ [l ++ q] := by
  induction p with
  | nil => exact ⟨[], [], rfl, by rw [List.nil_append, linesOf_one hq]; rfl⟩
  | cons c p ih =>
    obtain ⟨a, l, h1, h2⟩ := ih
    rw [List.cons_append, Logo.linesOf, Logo.linesOf, h1, h2]
    split_ifs with hc
    · exact ⟨[] :: a, l, rfl, rfl⟩
    · cases a with
      | nil => exact ⟨[], c :: l, rfl, rfl⟩
      | cons x a => exact ⟨(c :: x) :: a, l, rfl, rfl⟩

theorem infoText_parts (P : Parts) (input : Str) (cols : List Str) : infoText P input cols =
    separator ++ '\n' :: (P.logo ++ '\n' :: (Str.lit "Magnon dispersion is computed based on the file:" ++ '\n' :: (input ++
    '\n' :: (separator ++ '\n' :: (Str.lit "Cell:" ++ '\n' :: (P.cell ++ '\n' :: ((Str.lit "Detected Bravais lattice: " ++ P.variation) ++
    '\n' :: (separator ++ '\n' :: (separator ++ '\n' :: (Str.lit "kpath" ++ '\n' :: ((Str.lit "  " ++ P.path) ++
    '\n' :: (Str.lit "kpoints" ++ '\n' :: ((P.points ++ Str.lit "klabels") ++ '\n' :: ((P.ticks ++ separator) ++
    '\n' :: (Str.lit "dispersion" ++ '\n' :: titlesText cols))))))))))))))) := by
  unfold infoText
  generalize separator = sep
  simp only [List.append_assoc, List.cons_append]

/-- Full statement: the heading of the labels is a line of the description. -/
def C87_klabels_statement (P : Parts) : Prop :=
  ∀ (input : Str) (n : ℕ), Str.lit "klabels" ∈ Logo.linesOf (infoText P input (names n))

/-- **C87 is false of the code (headings).** The lists of points and of ticks are written without a line break behind them
(lines 139-141 and 149), so that the headings that follow are joined to them: whatever the points, no line of the
description is the heading of the labels (unless a part of the description has such a line by itself). -/
theorem C87_klabels_false (hP : P.Without (Str.lit "klabels")) (hne : P.points.getLast? = some ']') (input : Str) (hi : Str.lit "klabels" ∉ Logo.linesOf input)
    (n : ℕ) : Str.lit "klabels" ∉ Logo.linesOf (infoText P input (names n)) := by
  have hsep : ∀ c ∈ separator, c = '=' := fun c hc => List.eq_of_mem_replicate hc
  have hsb : '\n' ∉ separator := fun h => by cases hsep _ h
  have hns : Str.lit "klabels" ∉ Logo.linesOf separator := by
    rw [linesOf_one hsb, List.mem_singleton]
    intro h
    have := hsep 'k' (by rw [← h]; decide)
    revert this; decide
  have hone : ∀ s : Str, '\n' ∉ s → s.head? ≠ some 'k' → Str.lit "klabels" ∉ Logo.linesOf s := by
    intro s h1 h2 h3
    rw [linesOf_one h1, List.mem_singleton] at h3
    exact h2 (by rw [← h3]; rfl)
  have hq : ∀ p : Str, p.getLast? = some ']' → Str.lit "klabels" ∉ Logo.linesOf p →
      Str.lit "klabels" ∉ Logo.linesOf (p ++ Str.lit "klabels") := by
    intro p hp hn h
    obtain ⟨p', rfl⟩ : ∃ p', p = p' ++ [']'] := by
      rw [List.getLast?_eq_some_iff] at hp
      exact hp
    obtain ⟨a, l, h1, h2⟩ := lines_end (q := [']'] ++ Str.lit "klabels") (by decide) p'
    obtain ⟨a', l', h3, h4⟩ := lines_end (q := [']']) (by decide) p'
    rw [List.append_assoc, h2, List.mem_append, List.mem_singleton] at h
    have e : a = a' := by
      have := h1.symm.trans h3
      exact (List.append_inj' this rfl).1
    rcases h with h | h
    · exact hn (by rw [h4, ← e]; simp [h])
    · have := congrArg List.length h
      simp [Str.lit] at this
  have ht : Str.lit "klabels" ∉ Logo.linesOf (P.ticks ++ separator) := by
    intro h
    obtain ⟨a, l, h1, h2⟩ := lines_end hsb P.ticks
    rw [h2, List.mem_append, List.mem_singleton] at h
    rcases h with h | h
    · exact hP.ticks (by rw [h1]; simp [h])
    · have := congrArg List.length h
      simp [Str.lit, separator] at this
  have htit : Str.lit "klabels" ∉ Logo.linesOf (titlesText (names n)) :=
    hone _ (titles_noBreak n) (by rw [titles_eq]; simp [Str.lit])
  rw [infoText_parts]
  iterate 16 rw [linesOf_break]
  simp only [List.mem_append, not_or]
  refine ⟨hns, hP.logo, ?_, hi, hns, ?_, hP.cell, ?_, hns, hns, ?_, ?_, ?_, hq _ hne hP.points, ht, ?_, htit⟩
  · exact hone _ (by decide) (by decide)
  · exact hone _ (by decide) (by decide)
  · refine hone _ ?_ (by simp [Str.lit])
    rw [List.mem_append, not_or]
    exact ⟨by decide, hP.variation⟩
  · rw [linesOf_one (by decide)]; decide
  · refine hone _ ?_ (by simp [Str.lit])
    rw [List.mem_append, not_or]
    exact ⟨by decide, hP.path⟩
  · rw [linesOf_one (by decide)]; decide
  · exact hone _ (by decide) (by decide)

theorem C87_klabels_statement_false (hP : P.Without (Str.lit "klabels")) (hne : P.points.getLast? = some ']') :
    ¬ C87_klabels_statement P := fun h => C87_klabels_false hP hne [] (by decide) 0 (h [] 0)

/-! ### Examples -/

/-- Texts as the libraries print them. -/
def sampleParts : Parts where
  logo := Str.lit "magnopy"
  cell := Str.lit "[[1. 0. 0.]\n [0. 1. 0.]\n [0. 0. 1.]]"
  variation := Str.lit "CUB"
  path := Str.lit "GAMMA-X"
  points := Str.lit "[array([0., 0., 0.]), array([0. , 0.5, 0. ])]"
  ticks := Str.lit "[[0.0], [0.5]]"

open Example in
/-- The chain: the file with three rows can be read, and the info file names it. -/
example (solve : ∀ N, Mat N → Option ((Fin N ⊕ Fin N → ℂ) × Mat N)) (junk : ∀ N, Mat N) :
    ∃ w' f g rows, manager (env solve junk) { spinham := Str.lit "in/x.txt", kPoints := some words, saveTxt := true } {} = .ok w' ∧
      w'.files.get? (Str.lit "in/dispersion_data.txt") = some f ∧ w'.files.get? (Str.lit "in/dispersion_info.txt") = some g ∧
      (Logo.linesOf (fileText decimal sampleParts g)).getLast? = some (Str.lit "/in/dispersion_data.txt") ∧
      readRows sciOf (fileText decimal sampleParts f) = some rows ∧ rows.length = 3 := by
  obtain ⟨o, t, w', f, rows, h1, h2, h3, ⟨g, h4, h5⟩, h6, h7, -⟩ := C87_data (P := sampleParts) decimal_reads (env solve junk)
    (fun _ => .refl _) solve junk rfl { spinham := Str.lit "in/x.txt", kPoints := some words, saveTxt := true } {} (h0 := chain)
    (h := chain) rfl rfl (kp solve junk) (MagnonExample.ready true (e := -3) (o := -5) (by norm_num) (by norm_num)) (by simp [env])
    rfl (by simp [env]) rfl rfl
  have hd : '\n' ∉ Str.lit "/in/dispersion_data.txt" := by decide
  refine ⟨w', f, g, rows, h2, ?_, ?_, h5 hd, h6, h7⟩
  · rw [← h3]; rfl
  · rw [← h4]; rfl

/-- With `join_output` the file of the chain cannot be read as numbers. -/
example (input : Str) (cols : List Str) (rows : List (List MagnonObj.Entry)) :
    readRows sciOf (fileText decimal sampleParts (.table (some (input, cols)) rows)) = none :=
  C87_join_false (by decide +kernel) input cols rows

/-- The description of this run with two atoms has no line "klabels", and its titles have fifteen words for nine columns. -/
example : Str.lit "klabels" ∉ Logo.linesOf (infoText sampleParts (Str.lit "/in/x.txt") (names 2)) ∧
    ∃ l, (Logo.linesOf (infoText sampleParts (Str.lit "/in/x.txt") (names 2))).getLast? = some l ∧ l.split.length = 15 ∧
      (names 2).length = 9 := by
  obtain ⟨l, h1, _, h3⟩ := C87_titles (P := sampleParts) (Str.lit "/in/x.txt") 2
  exact ⟨C87_klabels_false ⟨by decide, by decide, by decide, by decide, by decide, by decide⟩ (by decide) _ (by decide) 2,
    l, h1, h3.trans (by rw [names_length]), names_length 2⟩

end Magnopy.DispScript
