import Verif.Spec.DispersionScript
import Verif.Props.Magnon
import Verif.Props.Omega

/-!
# `omegas` and the script magnopy-magnon-dispersion (C75)
-/

set_option autoImplicit false
set_option linter.unusedSectionVars false

namespace Magnopy

open PyDict Matrix Complex MagnonObj

variable {order : List Atom → List Atom} {lat : M3 ℝ} {pos : Atom → V3 ℝ} {spinVec : Atom → Option (V3 ℝ)} {s t : St ℝ}
  {o : MagnonObj}

/-! ### Arrays -/

/-- `omegasData` is `omega` for every point. -/
theorem omegasData_eq (cell : ℕ → M3 ℝ) (solve : Mat o.N → Option ((Fin o.N ⊕ Fin o.N → ℂ) × Mat o.N)) (junk : Mat o.N)
    (z : Bool) (hC : o.C = none) (ks : List (V3 ℝ)) : ∀ c, (c = none ∨ c = some (o.freshC cell)) →
      (o.omegasData cell solve junk z ks c).1 = ks.map fun k => (o.omega cell solve junk z false false k).1.1 := by
  induction ks with
  | nil => intro c _; rfl
  | cons k ks ih =>
    intro c hc
    have hh : (({ o with C := c } : MagnonObj).callH cell k).1 = (o.callH cell k).1 := by
      rcases hc with rfl | rfl
      · rw [← hC]
      · rw [callH_fresh cell hC]; rfl
    rw [omegasData, List.map_cons]
    simp only
    congr 1
    · simp only [omega]
      rw [hh]
    · apply ih
      right
      rcases hc with rfl | rfl <;> rfl

theorem omega_length (cell : ℕ → M3 ℝ) (solve : Mat o.N → Option ((Fin o.N ⊕ Fin o.N → ℂ) × Mat o.N)) (junk : Mat o.N)
    (z im : Bool) (k : V3 ℝ) : (o.omega cell solve junk z false im k).1.1.length = o.N := by
  have := C43_length_partial solve (o.callH cell k).1 junk z false im (fun h => by cases h)
  simpa [omega] using this

/-- **C75, `omegas`.** For any object that the constructor returns, any routine of diagonalisation and any list of points
(earlier calls do not matter): there is one row for each of the `N` branches, one column for each point, and the column of
a point is what `omega` of a new object returns for this point. -/
theorem C75_omegas (hord : ∀ l, (order l).Perm l) (hi : s.Inv) (ha : s.Alloc)
    (h : init order lat pos spinVec s = (.ok o, t)) (solve : Mat o.N → Option ((Fin o.N ⊕ Fin o.N → ℂ) × Mat o.N))
    (junk : Mat o.N) (z : Bool) (ks : List (V3 ℝ)) (hks : ks ≠ []) :
    (o.omegas t.cell solve junk z ks).length = o.N ∧ (∀ r ∈ o.omegas t.cell solve junk z ks, r.length = ks.length) ∧
      ∀ (m : ℕ) (hm : m < ks.length), ((o.omegas t.cell solve junk z ks).map fun r => r.getD m none) =
        (o.omega t.cell solve junk z false false ks[m]).1.1 := by
  have hC : o.C = none := (objSpec hord hi ha h).choose_spec.C
  have hd := omegasData_eq t.cell solve junk z hC ks o.C (Or.inl hC)
  have hw : ((o.omegasData t.cell solve junk z ks o.C).1.headD []).length = o.N := by
    rw [hd]
    obtain ⟨k, ks, rfl⟩ := List.exists_cons_of_ne_nil hks
    simp only [List.map_cons, List.headD_cons]
    exact omega_length _ _ _ _ _ _
  unfold omegas transposed
  rw [hw, hd]
  refine ⟨by simp, fun r hr => ?_, fun m hm => ?_⟩
  · obtain ⟨i, _, rfl⟩ := List.mem_map.1 hr
    simp
  · refine List.ext_getElem (by simp [omega_length]) fun i h1 h2 => ?_
    have hi : i < (o.omega t.cell solve junk z false false ks[m]).1.1.length := h2
    simp [hm, List.getElem?_eq_getElem hi]

namespace DispScript

variable {H Kp : Type}

/-! ### Additional points -/

/-- **C75, additional points.** The words of `--k-points` are read in groups of five; what is left over is ignored. -/
theorem C75_points (env : Env H Kp) (ws : List Words) (rest : List Str) (hrest : rest.length < 5) (kp : Kp) :
    extraPoints env (some (ws.flatMap Words.list ++ rest)) kp = addAll env ws kp := by
  have hl : (ws.flatMap Words.list ++ rest).length / 5 = ws.length := by
    rw [List.length_append, List.length_flatMap]
    have : (ws.map fun w => w.list.length).sum = 5 * ws.length := by
      induction ws with
      | nil => rfl
      | cons w ws ih => rw [List.map_cons, List.sum_cons, ih, List.length_cons]; simp [Words.list]; ring
    rw [this]
    omega
  show addPoints env ((ws.flatMap Words.list ++ rest).length / 5) (ws.flatMap Words.list ++ rest) kp = _
  rw [hl]
  clear hl
  induction ws generalizing kp with
  | nil => rfl
  | cons w ws ih =>
    rw [List.flatMap_cons, List.append_assoc]
    show addPoints env (ws.length + 1) (w.name :: w.label :: w.x :: w.y :: w.z :: (ws.flatMap Words.list ++ rest)) kp = _
    rw [addPoints, addAll, coordinates]
    cases env.float w.x with
    | none => rfl
    | some x =>
      cases env.float w.y with
      | none => rfl
      | some y =>
        cases env.float w.z with
        | none => rfl
        | some z =>
          simp only [bind, Except.bind, pure, Except.pure]
          cases env.addPoint kp w.name ![x, y, z] w.label with
          | error e => rfl
          | ok kp' => exact ih kp'

/-! ### Names of the files -/

theorem split_slash (d f : Str) (hd : d ≠ []) (hl : ∀ c ∈ d.getLast?, c ≠ '/') (hf : '/' ∉ f) :
    Path.split (d ++ '/' :: f) = (d, f) := by
  have hr : ∀ c ∈ f.reverse, (c != '/') = true := by
    intro c hc
    rw [List.mem_reverse] at hc
    simp only [bne_iff_ne, ne_eq]
    rintro rfl
    exact hf hc
  have e : (d ++ '/' :: f).reverse = f.reverse ++ ('/' :: d.reverse) := by simp
  obtain ⟨c, d', hdc⟩ : ∃ c d', d.reverse = c :: d' := by
    cases h : d.reverse with
    | nil => exact absurd (List.reverse_eq_nil_iff.1 h) hd
    | cons c d' => exact ⟨c, d', rfl⟩
  have hc : c ≠ '/' := by
    apply hl
    rw [← List.head?_reverse, hdc]
    rfl
  have hdd : d = (c :: d').reverse := by rw [← hdc, List.reverse_reverse]
  unfold Path.split
  rw [e, List.takeWhile_append_of_pos hr, List.dropWhile_append_of_pos hr]
  simp only [List.takeWhile_cons, List.dropWhile_cons, bne_self_eq_false, Bool.false_eq_true, if_false, List.append_nil,
    List.reverse_reverse, List.reverse_cons]
  rw [hdd]
  simp [hc]

theorem split_plain (f : Str) (hf : '/' ∉ f) : Path.split f = ([], f) := by
  have hr : ∀ c ∈ f.reverse, (c != '/') = true := by
    intro c hc
    rw [List.mem_reverse] at hc
    simp only [bne_iff_ne, ne_eq]
    rintro rfl
    exact hf hc
  unfold Path.split
  rw [← List.append_nil f.reverse, List.takeWhile_append_of_pos hr, List.dropWhile_append_of_pos hr]
  simp

theorem join_slash (d f : Str) (hd : d ≠ []) (hl : ∀ c ∈ d.getLast?, c ≠ '/') (hf : '/' ∉ f) :
    Path.join d f = d ++ '/' :: f := by
  have h1 : f.startsWith ['/'] = false := by
    cases f with
    | nil => rfl
    | cons c f =>
      simp only [List.mem_cons, not_or] at hf
      simp [Str.startsWith, List.isPrefixOf, hf.1]
  have h2 : d.endsWith ['/'] = false := by
    rw [Bool.eq_false_iff]
    intro h
    obtain ⟨t, ht⟩ := List.isSuffixOf_iff_suffix.1 h
    exact hl '/' (by rw [← ht]; simp) rfl
  unfold Path.join
  rw [h1, h2]
  simp [hd]

theorem join_plain (f : Str) : Path.join [] f = f := by
  unfold Path.join
  simp

/-- **C75, names.** Let the last part of the seed name be `n` ("dispersion" if it is empty).  If the seed name has a
directory, the files are put there, whatever the input; otherwise they are put where the input is. -/
theorem C75_names (d f n i : Str) (hd : d ≠ []) (hl : ∀ c ∈ d.getLast?, c ≠ '/') (hf : '/' ∉ f) (hn : '/' ∉ n) :
    (outputName i (d ++ '/' :: n) = d ++ '/' :: if n = [] then Str.lit "dispersion" else n) ∧
    (outputName (d ++ '/' :: f) n = d ++ '/' :: if n = [] then Str.lit "dispersion" else n) ∧
    outputName f n = if n = [] then Str.lit "dispersion" else n := by
  have hnn : '/' ∉ (if n = [] then Str.lit "dispersion" else n) := by
    split_ifs
    · decide
    · exact hn
  unfold outputName output
  rw [split_slash d n hd hl hn, split_slash d f hd hl hf, split_plain f hf, split_plain n hn]
  refine ⟨?_, ?_, ?_⟩
  · simp only [if_neg hd]
    exact join_slash d _ hd hl hnn
  · simp only [if_true]
    exact join_slash d _ hd hl hnn
  · simp only [if_true]
    exact join_plain _

/-- `data/x.txt` with the seed name `out/run/` and with the seed name `fig`. -/
example : outputName (Str.lit "data/x.txt") (Str.lit "out/run/") = Str.lit "out/run/dispersion" ∧
    outputName (Str.lit "data/x.txt") (Str.lit "fig") = Str.lit "data/fig" :=
  ⟨(C75_names (Str.lit "out/run") [] [] (Str.lit "data/x.txt") (by decide) (by decide) (by decide) (by decide)).1,
    (C75_names (Str.lit "data") (Str.lit "x.txt") (Str.lit "fig") [] (by decide) (by decide) (by decide) (by decide)).2.1⟩

/-! ### Files -/

theorem saveTxt_files (env : Env H Kp) (args : Args) (kp : Kp) (om : List (List Entry)) (w : World) (f : Str)
    (hs : args.saveTxt = true) (hf : ∀ x ∈ suffixes args, f ≠ outputName args.spinham args.seed ++ x) :
    (saveTxt env args kp om w).st.files.get? f = w.files.get? f := by
  unfold suffixes at hf
  rw [if_pos hs] at hf
  unfold saveTxt
  cases hj : args.join with
  | true =>
    rw [hj, if_pos rfl] at hf
    have h1 := hf (Str.lit ".txt") (by simp)
    simp only [if_true]
    split_ifs
    · rw [Res.st_ok, PyDict.get?_set, if_neg (Ne.symm h1)]
    · rfl
  | false =>
    rw [hj, if_neg Bool.false_ne_true] at hf
    have h1 := hf (Str.lit "_info.txt") (by simp)
    have h2 := hf (Str.lit "_data.txt") (by simp)
    simp only [Bool.false_eq_true, if_false]
    split_ifs
    · rw [Res.st_ok, PyDict.get?_set, if_neg (Ne.symm h2), PyDict.get?_set, if_neg (Ne.symm h1)]
    · rw [Res.st_raise, PyDict.get?_set, if_neg (Ne.symm h1)]

/-- The end of the script. -/
def finish (env : Env H Kp) (args : Args) (kp : Kp) (om : List (List Entry)) (w : World) : Res World :=
  (if args.saveTxt then saveTxt env args kp om w else .ok w).andThen fun w =>
    if args.interactive then .ok w
    else .ok { w with files := w.files.set (outputName args.spinham args.seed ++ Str.lit ".png") (.figure (env.flat kp) om) }

theorem manager_cases (env : Env H Kp) (args : Args) (w : World) :
    (∃ e w1, manager env args w = .raise w1 e ∧ w1.files = w.files) ∨
    ∃ h0 h kp om w1, env.load args.spinham args.format = .ok h0 ∧ env.standardize h0 = .ok h ∧
      kpointsOf env args h = .ok kp ∧ env.omegas h (env.points kp) = .ok om ∧
      (∀ r ∈ om, r.length = (env.flat kp).length) ∧ env.flat kp ≠ [] ∧ w1.files = w.files ∧
      manager env args w = finish env args kp om w1 := by
  unfold manager
  simp only
  generalize hw1 : (if (output args.spinham args.seed).1 = [] then w
    else { w with dirs := w.dirs ++ [(output args.spinham args.seed).1] }) = w1
  have hw : w1.files = w.files := by
    rw [← hw1]
    split_ifs <;> rfl
  cases hl : env.load args.spinham args.format with
  | error e => exact .inl ⟨e, w1, rfl, hw⟩
  | ok h0 =>
    simp only
    cases hs : env.standardize h0 with
    | error e => exact .inl ⟨e, w1, rfl, hw⟩
    | ok h =>
      simp only
      cases hk : kpointsOf env args h with
      | error e => exact .inl ⟨e, w1, rfl, hw⟩
      | ok kp =>
        simp only
        cases ho : env.omegas h (env.points kp) with
        | error e => exact .inl ⟨e, w1, rfl, hw⟩
        | ok om =>
          simp only
          by_cases h1 : (om.any fun r => r.length != (env.flat kp).length) = true
          · rw [if_pos h1]
            exact .inl ⟨_, w1, rfl, hw⟩
          · rw [if_neg h1]
            by_cases h2 : env.flat kp = []
            · rw [if_pos h2]
              exact .inl ⟨_, w1, rfl, hw⟩
            · rw [if_neg h2]
              refine .inr ⟨h0, h, kp, om, w1, rfl, hs, hk, ho, fun r hr => ?_, h2, hw, rfl⟩
              by_contra hne
              exact h1 (List.any_eq_true.2 ⟨r, hr, by simpa using hne⟩)

/-- **C75, files.** Whatever the input and the environment, also if the run fails: only files whose names start with the
output name and end with one of the suffixes that the options ask for are written. -/
theorem C75_files (env : Env H Kp) (args : Args) (w : World) (f : Str)
    (hf : ∀ x ∈ suffixes args, f ≠ outputName args.spinham args.seed ++ x) :
    (manager env args w).st.files.get? f = w.files.get? f := by
  rcases manager_cases env args w with ⟨e, w1, h, hw⟩ | ⟨h0, hh, kp, om, w1, -, -, -, -, -, -, hw, h⟩
  · rw [h, Res.st_raise, hw]
  · rw [h, ← hw, finish]
    have h1 : ((if args.saveTxt then saveTxt env args kp om w1 else .ok w1).st.files.get? f) = w1.files.get? f := by
      by_cases hs : args.saveTxt = true
      · rw [if_pos hs]
        exact saveTxt_files env args kp om w1 f hs hf
      · rw [if_neg hs, Res.st_ok]
    rw [← h1]
    generalize (if args.saveTxt then saveTxt env args kp om w1 else .ok w1) = r
    unfold Res.andThen
    split
    · simp only
      by_cases hi : args.interactive = true
      · rw [if_pos hi, Res.st_ok]
      · rw [if_neg hi, Res.st_ok, PyDict.get?_set, if_neg]
        refine Ne.symm (hf _ ?_)
        simp [suffixes, hi]
    · rfl

/-- **C75, failure.** If the run ends with an exception, neither a table nor a figure is written: files of these names are
what they were before. -/
theorem C75_failure (env : Env H Kp) (args : Args) (w : World) (herr : (manager env args w).err ≠ none) (f : Str)
    (hf : f ≠ outputName args.spinham args.seed ++ Str.lit "_info.txt") :
    (manager env args w).st.files.get? f = w.files.get? f := by
  rcases manager_cases env args w with ⟨e, w1, h, hw⟩ | ⟨h0, hh, kp, om, w1, -, -, -, -, -, -, hw, h⟩
  · rw [h, Res.st_raise, hw]
  · rw [h] at herr ⊢
    rw [← hw]
    unfold finish at herr ⊢
    by_cases hs : args.saveTxt = true
    · rw [if_pos hs] at herr ⊢
      have h2 : (saveTxt env args kp om w1).err ≠ none := by
        intro h0
        apply herr
        unfold Res.andThen
        rw [h0]
        simp only
        split_ifs <;> rfl
      have h3 : ∀ g, (saveTxt env args kp om w1).andThen g = saveTxt env args kp om w1 := by
        intro g
        unfold Res.andThen
        cases he : (saveTxt env args kp om w1).err with
        | none => exact absurd he h2
        | some e => rfl
      rw [h3]
      unfold saveTxt at h2 ⊢
      simp only at h2 ⊢
      split_ifs at h2 ⊢
      · exact absurd (Res.err_ok _) h2
      · rfl
      · exact absurd (Res.err_ok _) h2
      · rw [Res.st_raise, PyDict.get?_set, if_neg (Ne.symm hf)]
    · exfalso
      rw [if_neg hs] at herr
      apply herr
      rw [Res.ok_andThen]
      split_ifs <;> rfl

/-- **C75, no points.** A path without points makes the script fail (it asks for the first coordinate), and no file is
written. -/
theorem C75_nopoints (env : Env H Kp) (args : Args) (w : World) (hf : ∀ kp, env.flat kp = []) :
    (manager env args w).err ≠ none ∧ (manager env args w).st.files = w.files := by
  rcases manager_cases env args w with ⟨e, w1, h, hw⟩ | ⟨h0, hh, kp, om, w1, -, -, -, -, -, hne, hw, h⟩
  · rw [h]
    exact ⟨by simp, hw⟩
  · exact absurd (hf kp) hne

/-! ### The table -/

theorem names_length (n : ℕ) : (names n).length = n + 7 := by
  simp [names]

theorem columns_length (flat : List ℝ) (om : List (List Entry)) (rel points : List (V3 ℝ)) :
    (columns flat om rel points).length = om.length + 7 := by
  simp [columns, rowsOf]

theorem row_columns (flat : List ℝ) (om : List (List Entry)) (rel points : List (V3 ℝ)) (m : ℕ) (h1 : m < flat.length)
    (h2 : m < rel.length) (h3 : m < points.length) :
    ((columns flat om rel points).map fun r => r.getD m none) = row flat[m] (om.map fun r => r.getD m none) rel[m] points[m] := by
  have e3 : ∀ f : Fin 3 → List Entry, (List.finRange 3).map f = [f 0, f 1, f 2] := fun f => rfl
  have e : ∀ {α : Type} (l : List α) (f : α → Entry) (h : m < l.length), (l.map f).getD m none = f l[m] := by
    intro α l f h
    rw [List.getD_eq_getElem?_getD, List.getElem?_map, List.getElem?_eq_getElem h]
    rfl
  simp only [columns, row, rowsOf, triple, e3, List.map_append, List.map_cons, List.map_nil, e _ _ h1, e _ _ h2, e _ _ h3,
    List.singleton_append, List.cons_append, List.append_assoc, List.nil_append]

theorem transposed_getElem (data : List (List Entry)) (m : ℕ) (hm : m < (data.headD []).length) :
    (MagnonObj.transposed data)[m]? = some (data.map fun r => r.getD m none) := by
  unfold MagnonObj.transposed
  rw [List.getElem?_map, List.getElem?_range hm]
  rfl

theorem manager_ok (env : Env Ham Kp) {order : List Atom → List Atom} (hord : ∀ l, (order l).Perm l)
    (solve : ∀ N, Mat N → Option ((Fin N ⊕ Fin N → ℂ) × Mat N)) (junk : ∀ N, Mat N)
    (henv : env.omegas = compute order solve junk) (args : Args) (w : World) {h0 h : Ham} {kp : Kp} {spin : Atom → ℝ}
    (hload : env.load args.spinham args.format = .ok h0) (hstd : env.standardize h0 = .ok h)
    (hkp : kpointsOf env args h = .ok kp) (hr : MagnonReady order h.spinVec h.st spin)
    (hflat : (env.flat kp).length = (env.points kp).length) (hne : env.points kp ≠ []) :
    ∃ o t om w1, init order h.lat h.pos h.spinVec h.st = (.ok o, t) ∧ manager env args w = finish env args kp om w1 ∧
      om.length = o.N ∧ (∀ r ∈ om, r.length = (env.points kp).length) ∧
      ∀ (m : ℕ) (hm : m < (env.points kp).length), (om.map fun r => r.getD m none) =
        (o.omega t.cell (solve o.N) (junk o.N) false false false (env.points kp)[m]).1.1 := by
  obtain ⟨o, t, items, h1, -, -⟩ := hr.ok (Γ := Unit) hord h.lat h.pos
  obtain ⟨hA, hB, hC⟩ := C75_omegas hord hr.inv hr.wf.alloc h1 (solve o.N) (junk o.N) false (env.points kp) hne
  have hom : env.omegas h (env.points kp) = .ok (o.omegas t.cell (solve o.N) (junk o.N) false (env.points kp)) := by
    rw [henv, compute, h1]
  generalize o.omegas t.cell (solve o.N) (junk o.N) false (env.points kp) = om at hA hB hC hom
  refine ⟨o, t, om, if (output args.spinham args.seed).1 = [] then w
    else { w with dirs := w.dirs ++ [(output args.spinham args.seed).1] }, h1, ?_, hA, hB, hC⟩
  unfold manager
  simp only [hload, hstd, hkp, hom]
  rw [if_neg, if_neg]
  · rfl
  · intro h0
    rw [h0] at hflat
    exact hne (List.length_eq_zero_iff.1 hflat.symm)
  · intro h0
    obtain ⟨r, hr1, hr2⟩ := List.any_eq_true.1 h0
    rw [hB r hr1, hflat] at hr2
    simp at hr2

/-- **C75, table.** A Hamiltonian that can be loaded and standardised and for whose standard form the magnons are defined,
on a path with at least one point.  The script ends without an exception; the table has one row for each point; the row of a
point consists of the coordinate along the path, the `N` energies that `omega` of a new object returns, the relative and
the absolute coordinates of the point; there are as many names of columns as columns. -/
theorem C75_table (env : Env Ham Kp) {order : List Atom → List Atom} (hord : ∀ l, (order l).Perm l)
    (solve : ∀ N, Mat N → Option ((Fin N ⊕ Fin N → ℂ) × Mat N)) (junk : ∀ N, Mat N)
    (henv : env.omegas = compute order solve junk) (args : Args) (w : World) {h0 h : Ham} {kp : Kp} {spin : Atom → ℝ}
    (hload : env.load args.spinham args.format = .ok h0) (hstd : env.standardize h0 = .ok h)
    (hkp : kpointsOf env args h = .ok kp) (hr : MagnonReady order h.spinVec h.st spin)
    (hflat : (env.flat kp).length = (env.points kp).length) (hrel : (env.relative kp).length = (env.points kp).length)
    (hne : env.points kp ≠ []) (hs : args.saveTxt = true) :
    ∃ o t w' header rows, init order h.lat h.pos h.spinVec h.st = (.ok o, t) ∧ manager env args w = .ok w' ∧
      w'.files.get? (outputName args.spinham args.seed ++ tableSuffix args) = some (.table header rows) ∧
      (if args.join then header = some (env.abspath args.spinham, names o.N) else header = none ∧
        w'.files.get? (outputName args.spinham args.seed ++ Str.lit "_info.txt") =
          some (.info (env.abspath args.spinham) (names o.N)
            (some (env.abspath (outputName args.spinham args.seed ++ Str.lit "_data.txt"))))) ∧
      rows.length = (env.points kp).length ∧
      (∀ (m : ℕ) (hm : m < (env.points kp).length), rows[m]? = some (row (env.flat kp)[m]
        (o.omega t.cell (solve o.N) (junk o.N) false false false (env.points kp)[m]).1.1 (env.relative kp)[m]
          (env.points kp)[m])) ∧
      ∀ r ∈ rows, r.length = (names o.N).length ∧ r.length = o.N + 7 := by
  obtain ⟨o, t, om, w1, h1, hm, hA, hB, hC⟩ := manager_ok env hord solve junk henv args w hload hstd hkp hr hflat hne
  have hfit : ((columns (env.flat kp) om (env.relative kp) (env.points kp)).all
      fun c => c.length == (env.flat kp).length) = true := by
    rw [List.all_eq_true]
    intro c hc
    unfold columns rowsOf at hc
    simp only [List.mem_append, List.mem_map, List.mem_singleton] at hc
    rw [beq_iff_eq]
    rcases hc with ((rfl | hc) | ⟨i, -, rfl⟩) | ⟨i, -, rfl⟩
    · simp
    · rw [hB c hc, hflat]
    · simp [hrel, hflat]
    · simp [hflat]
  have hhead : ((columns (env.flat kp) om (env.relative kp) (env.points kp)).headD []).length = (env.points kp).length := by
    rw [← hflat]
    simp [columns]
  have hlen : (transposed (columns (env.flat kp) om (env.relative kp) (env.points kp))).length = (env.points kp).length := by
    unfold transposed
    rw [List.length_map, List.length_range, hhead]
  have hrows : ∀ (m : ℕ) (hm : m < (env.points kp).length),
      (transposed (columns (env.flat kp) om (env.relative kp) (env.points kp)))[m]? = some (row (env.flat kp)[m]
        (o.omega t.cell (solve o.N) (junk o.N) false false false (env.points kp)[m]).1.1 (env.relative kp)[m]
          (env.points kp)[m]) := by
    intro m hm
    rw [transposed_getElem _ _ (by rw [hhead]; exact hm), row_columns _ _ _ _ _ (by omega) (by omega) hm, hC m hm]
  have hwidth : ∀ r ∈ transposed (columns (env.flat kp) om (env.relative kp) (env.points kp)),
      r.length = (names o.N).length ∧ r.length = o.N + 7 := by
    intro r hr
    obtain ⟨i, -, rfl⟩ := List.mem_map.1 hr
    rw [List.length_map, columns_length, names_length, hA]
    exact ⟨rfl, rfl⟩
  have hpng : ∀ x ∈ [Str.lit ".txt", Str.lit "_data.txt", Str.lit "_info.txt"],
      outputName args.spinham args.seed ++ Str.lit ".png" ≠ outputName args.spinham args.seed ++ x := by
    intro x hx h
    have := List.append_cancel_left h
    rw [← this] at hx
    revert hx
    decide
  have hid : outputName args.spinham args.seed ++ Str.lit "_data.txt" ≠ outputName args.spinham args.seed ++ Str.lit "_info.txt" := by
    intro h
    have := List.append_cancel_left h
    revert this
    decide
  unfold finish at hm
  rw [if_pos hs] at hm
  unfold saveTxt at hm
  simp only at hm
  rw [if_pos hfit, if_pos hfit, hA] at hm
  cases hj : args.join with
  | true =>
    rw [hj, if_pos rfl, Res.ok_andThen] at hm
    refine ⟨o, t, (manager env args w).st, some (env.abspath args.spinham, names o.N), _, h1, ?_, ?_, by simp, hlen, hrows, hwidth⟩
    · rw [hm]
      split_ifs <;> rfl
    · rw [hm]
      unfold tableSuffix
      rw [hj, if_pos rfl]
      split_ifs
      · rw [Res.st_ok, PyDict.get?_set_self]
      · rw [Res.st_ok, PyDict.get?_set, if_neg (hpng _ (by simp)), PyDict.get?_set_self]
  | false =>
    rw [hj, if_neg Bool.false_ne_true, Res.ok_andThen] at hm
    refine ⟨o, t, (manager env args w).st, none, _, h1, ?_, ?_, ?_, hlen, hrows, hwidth⟩
    · rw [hm]
      split_ifs <;> rfl
    · rw [hm]
      unfold tableSuffix
      rw [hj, if_neg Bool.false_ne_true]
      split_ifs
      · rw [Res.st_ok, PyDict.get?_set_self]
      · rw [Res.st_ok, PyDict.get?_set, if_neg (hpng _ (by simp)), PyDict.get?_set_self]
    · rw [if_neg Bool.false_ne_true]
      refine ⟨rfl, ?_⟩
      rw [hm]
      split_ifs
      · rw [Res.st_ok, PyDict.get?_set, if_neg hid, PyDict.get?_set_self]
      · rw [Res.st_ok, PyDict.get?_set, if_neg (hpng _ (by simp)), PyDict.get?_set, if_neg hid, PyDict.get?_set_self]

/-- **C75, figure.** Under the same conditions, with or without text files, unless the figure is shown interactively:
the figure has one curve for each of the `N` branches over the coordinates of the path, and at every point the curves go
through the energies that `omega` of a new object returns. -/
theorem C75_figure (env : Env Ham Kp) {order : List Atom → List Atom} (hord : ∀ l, (order l).Perm l)
    (solve : ∀ N, Mat N → Option ((Fin N ⊕ Fin N → ℂ) × Mat N)) (junk : ∀ N, Mat N)
    (henv : env.omegas = compute order solve junk) (args : Args) (w : World) {h0 h : Ham} {kp : Kp} {spin : Atom → ℝ}
    (hload : env.load args.spinham args.format = .ok h0) (hstd : env.standardize h0 = .ok h)
    (hkp : kpointsOf env args h = .ok kp) (hr : MagnonReady order h.spinVec h.st spin)
    (hflat : (env.flat kp).length = (env.points kp).length) (hrel : (env.relative kp).length = (env.points kp).length)
    (hne : env.points kp ≠ []) (hi : args.interactive = false) :
    ∃ o t w' curves, init order h.lat h.pos h.spinVec h.st = (.ok o, t) ∧ manager env args w = .ok w' ∧
      w'.files.get? (outputName args.spinham args.seed ++ Str.lit ".png") = some (.figure (env.flat kp) curves) ∧
      curves.length = o.N ∧ (∀ r ∈ curves, r.length = (env.points kp).length) ∧
      ∀ (m : ℕ) (hm : m < (env.points kp).length), (curves.map fun r => r.getD m none) =
        (o.omega t.cell (solve o.N) (junk o.N) false false false (env.points kp)[m]).1.1 := by
  obtain ⟨o, t, om, w1, h1, hm, hA, hB, hC⟩ := manager_ok env hord solve junk henv args w hload hstd hkp hr hflat hne
  have hok : (manager env args w).err = none := by
    cases hs : args.saveTxt with
    | true =>
      obtain ⟨_, _, w', _, _, _, hw', _⟩ := C75_table env hord solve junk henv args w hload hstd hkp hr hflat hrel hne hs
      rw [hw', Res.err_ok]
    | false =>
      rw [hm]
      unfold finish
      rw [hs, hi]
      rfl
  have hfin : ∃ w2, (if args.saveTxt then saveTxt env args kp om w1 else .ok w1) = .ok w2 := by
    refine ⟨(if args.saveTxt then saveTxt env args kp om w1 else .ok w1).st, ?_⟩
    rw [hm] at hok
    unfold finish Res.andThen at hok
    generalize (if args.saveTxt then saveTxt env args kp om w1 else .ok w1) = r at hok
    obtain ⟨st, err⟩ := r
    cases err with
    | none => rfl
    | some e => cases hok
  obtain ⟨w2, hw2⟩ := hfin
  unfold finish at hm
  rw [hw2, Res.ok_andThen, hi, if_neg Bool.false_ne_true] at hm
  refine ⟨o, t, _, om, h1, hm, ?_, hA, hB, hC⟩
  rw [PyDict.get?_set_self]

/-! ### Unstable states -/

open scoped ComplexOrder

/-- **C75, unstable.** At a point where the matrix is Hermitian, not negative definite and not positive definite even
after the shift, all energies of the column are zero; in the table they cannot be told from true zeros. -/
theorem C75_unstable {order : List Atom → List Atom} (hord : ∀ l, (order l).Perm l) (hi : s.Inv) (ha : s.Alloc)
    (h : init order lat pos spinVec s = (.ok o, t)) {chol : Mat o.N → Option (Mat o.N)}
    {eig : Mat o.N → (Fin o.N ⊕ Fin o.N → ℂ) × Mat o.N} {sort : (Fin o.N ⊕ Fin o.N → ℂ) → Equiv.Perm (Fin o.N ⊕ Fin o.N)}
    (hchol : IsCholesky chol) (junk : Mat o.N)
    (ks : List (V3 ℝ)) (m : ℕ) (hm : m < ks.length) (hH : (o.callH t.cell ks[m]).1.IsHermitian)
    (h1 : ¬ ((o.callH t.cell ks[m]).1 + diagonal fun _ => 1 / 10 ^ 8).PosDef) (h2 : ¬ (-(o.callH t.cell ks[m]).1).PosDef) :
    ((o.omegas t.cell (Colpa.solve chol eig sort) junk false ks).map fun r => r.getD m none) =
      List.replicate o.N (some 0) := by
  have hne : ks ≠ [] := by
    rintro rfl
    cases hm
  rw [(C75_omegas hord hi ha h _ junk false ks hne).2.2 m hm]
  exact C43_fallback hchol _ junk hH h1 h2 false false false

/-! ### Examples -/

namespace Example

open MagnonExample FerroExample HistoryExample

/-- The chain of the examples. -/
noncomputable def chain : Ham := ⟨st true true (-3) (-5) twice [(fe1, 2)], 1, fun _ => 0, spinZ⟩

/-- A path with two points; added points are put at its end. -/
noncomputable def env (solve : ∀ N, Mat N → Option ((Fin N ⊕ Fin N → ℂ) × Mat N)) (junk : ∀ N, Mat N) :
    Env Ham (List (V3 ℝ)) where
  load _ _ := .ok chain
  standardize h := .ok h
  kpoints _ := .ok [0, ![1, 0, 0]]
  addPoint kp _ c _ := .ok (kp ++ [c])
  setPath _ _ := .error .valueError
  points kp := kp
  relative kp := kp
  flat kp := kp.map fun k => k 0
  float w := if w = Str.lit "0.5" then some (1 / 2) else none
  abspath n := '/' :: n
  omegas := compute id solve junk

/-- The words of a point and two words too many. -/
def words : List Str := (["X", "X", "0.5", "0.5", "0.5", "Y", "Y"] : List String).map Str.lit

theorem kp (solve : ∀ N, Mat N → Option ((Fin N ⊕ Fin N → ℂ) × Mat N)) (junk : ∀ N, Mat N) :
    kpointsOf (env solve junk) { spinham := Str.lit "in/x.txt", kPoints := some words, saveTxt := true } chain =
      .ok [0, ![1, 0, 0], ![1 / 2, 1 / 2, 1 / 2]] := by
  have h := C75_points (env solve junk) [⟨Str.lit "X", Str.lit "X", Str.lit "0.5", Str.lit "0.5", Str.lit "0.5"⟩]
    [Str.lit "Y", Str.lit "Y"] (by simp) [0, ![1, 0, 0]]
  unfold kpointsOf
  simp only
  show (match extraPoints (env solve junk) (some words) [0, ![1, 0, 0]] with
    | .error e => Except.error e
    | .ok kp' => .ok kp') = _
  erw [h]
  simp [addAll, env, bind, Except.bind]

end Example

open Example in
/-- A run with an additional point: the table has three rows of `N + 7` numbers, the last one is the row of the added point. -/
example (solve : ∀ N, Mat N → Option ((Fin N ⊕ Fin N → ℂ) × Mat N)) (junk : ∀ N, Mat N) :
    ∃ o t w' rows, init id 1 (fun _ => 0) chain.spinVec chain.st = (.ok o, t) ∧
      manager (env solve junk) { spinham := Str.lit "in/x.txt", kPoints := some words, saveTxt := true } {} = .ok w' ∧
      w'.files.get? (Str.lit "in/dispersion_data.txt") = some (.table none rows) ∧ rows.length = 3 ∧
      rows[2]? = some (row (1 / 2) (o.omega t.cell (solve o.N) (junk o.N) false false false ![1 / 2, 1 / 2, 1 / 2]).1.1
        ![1 / 2, 1 / 2, 1 / 2] ![1 / 2, 1 / 2, 1 / 2]) ∧ ∀ r ∈ rows, r.length = o.N + 7 := by
  obtain ⟨o, t, w', hd, rows, h1, h2, h3, h4, h5, h6, h7⟩ := C75_table (env solve junk) (fun _ => .refl _) solve junk rfl
    { spinham := Str.lit "in/x.txt", kPoints := some words, saveTxt := true } {} (h0 := chain) (h := chain) rfl rfl
    (kp solve junk) (MagnonExample.ready true (e := -3) (o := -5) (by norm_num) (by norm_num)) (by simp [env]) rfl
    (by simp [env]) rfl
  obtain ⟨rfl, -⟩ := h4
  refine ⟨o, t, w', rows, h1, h2, ?_, h5, ?_, fun r hr => (h7 r hr).2⟩
  · rw [← h3]
    rfl
  · have := h6 2 (by simp [env])
    simpa [env] using this

end DispScript
end Magnopy
