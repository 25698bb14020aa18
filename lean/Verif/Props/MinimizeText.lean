import Verif.Lemmas.MinimizeText
import Verif.Lemmas.HistorySample
import Verif.Props.Minimize

/-!
# C86: the text of the results file of `magnopy-minimize-energy`
-/

set_option autoImplicit false
set_option linter.unusedSectionVars false

namespace Magnopy.Minimize

open History Txt Optimize EnergyObj

variable {F : NumFmt ℝ} {float : Str → Option ℝ} {seed logo : Str} {env : Env}

/-- **C86 (the text says what was written).** Whatever the script does, whether it raises or not: reading the results file
line by line gives what was written to it in the order of writing, with all numbers right to eight digits after the point.
(The names of atoms have no spaces, nor has the seed; the logo has no line which looks like a result.) -/
theorem C86_read (hF : Reads F float) (hw : NoNumbers float) (hs : ∀ c ∈ seed, Str.isSpace c = false)
    (hl : entries float logo = []) (hn : env.Named) {arg : GsArg} {w : World} {res : Except PyErr Unit}
    (h : manager env arg = some (w, res)) :
    List.Forall₂ Entry.Near (entries float (resultsText F seed logo w)) (w.recs.filterMap Rec.entry) := by
  rw [resultsText, entries_break, hl, List.nil_append]
  exact read_fine hF hw hs (fine_manager hn h)

theorem rows_entry (l : List (V3 ℝ)) : (env.rows l).filterMap Rec.entry =
    List.zipWith (fun a e => .row a.name.toList (comps (env.pos a) ++ comps e)) env.atoms l := by
  rw [Env.rows]
  generalize env.atoms = as
  induction as generalizing l with
  | nil => rfl
  | cons a as ih =>
    cases l with
    | nil => rfl
    | cons e l =>
      rw [List.zipWith_cons_cons, List.zipWith_cons_cons, List.filterMap_cons, ih]
      rfl

theorem block_entry (g : Str) (c : ℕ) : (env.block g c).filterMap Rec.entry = env.told g c := by
  rw [Env.block, Env.told]
  split
  · rw [List.filterMap_append, rows_entry]
    rfl
  · rw [List.filterMap_append, List.filterMap_append, rows_entry]
    rfl

theorem expected_entry (gs : List Str) (hg : ∀ g ∈ gs, Plain g) (c : ℕ) :
    (env.expected gs c).filterMap Rec.entry = gs.mapIdx fun i g => env.toldEnergy g (c + i) := by
  induction gs generalizing c with
  | nil => rfl
  | cons g gs ih =>
    have h1 : (env.lines g c).filterMap Rec.entry = [env.toldEnergy g c] := by
      rcases hg g (by simp) with rfl | rfl
      · rw [Env.lines, if_pos rfl, Env.toldEnergy, if_pos rfl]
        rfl
      · rw [Env.lines, if_neg ne_sf, if_neg ne_sa, if_pos rfl, Env.toldEnergy, if_neg ne_sf]
        rfl
    have h2 : (jobsOf env.recip g).length = 1 := by
      rcases hg g (by simp) with rfl | rfl
      · rw [jobsOf_ferro]; rfl
      · rw [jobsOf_spiral]; rfl
    rw [Env.expected, List.filterMap_append, h1, h2, ih (fun g hm => hg g (by simp [hm])), List.mapIdx_cons,
      List.singleton_append]
    congr 1
    apply List.ext_getElem (by simp)
    intro i _ _
    simp only [List.getElem_mapIdx]
    congr 1
    omega

/-- **C86 (tables and energies).** For the ferro and spiral cases, if all minimisations succeed, then reading the results
file gives for every requested type the table of all magnetic atoms with names, positions and directions (and the cone axis
and the spiral vector), and then for every requested type the energy of the state which was found. -/
theorem C86_tables (hF : Reads F float) (hw : NoNumbers float) (hs : ∀ c ∈ seed, Str.isSpace c = false)
    (hl : entries float logo = []) (hn : env.Named) (gs : List Str) (hg : ∀ g ∈ gs, Plain g)
    (h : env.AllOk 0 (jobs env.recip gs)) :
    ∃ w, manager env (.list gs) = some (w, .ok ()) ∧
      List.Forall₂ Entry.Near (entries float (resultsText F seed logo w))
        ((gs.mapIdx fun i g => env.told g i).flatten ++ gs.mapIdx fun i g => env.toldEnergy g i) := by
  obtain ⟨w, h1, h2⟩ := C68_tables gs hg h
  refine ⟨w, h1, ?_⟩
  have := C86_read (logo := logo) hF hw hs hl hn h1
  rw [h2, List.filterMap_append, List.filterMap_flatten] at this
  have e0 : (gs.mapIdx fun i g => env.block g i).map (List.filterMap Rec.entry) = gs.mapIdx fun i g => env.told g i := by
    apply List.ext_getElem (by simp)
    intro i _ _
    simp [block_entry]
  rw [e0] at this
  have e1 : (Rec.summary :: env.expected gs 0).filterMap Rec.entry = (env.expected gs 0).filterMap Rec.entry := rfl
  rw [e1, expected_entry gs hg] at this
  simpa using this

/-- **C86 (the file of a Hamiltonian).** For every Hamiltonian whose magnetic atoms have names without spaces: if
the script for the ferro case ends without an exception, then the results file shows every magnetic atom once with its
name, position and a direction of length one, and then one number, the energy of the Hamiltonian in this configuration; the
numbers are right to eight digits after the point. -/
theorem C86_ferro_report (hF : Reads F float) (hw : NoNumbers float) (hs : ∀ c ∈ seed, Str.isSpace c = false)
    (hl : entries float logo = []) {order : List Atom → List Atom} (hord : ∀ l, (order l).Perm l) (lat recip : M3 ℝ)
    (pos : Atom → V3 ℝ) (g : Atom → ℝ) (muB : ℝ) (rnd : ℕ → Random) (fuel : ℕ) (s : St ℝ) (spin : Atom → ℝ) (d n : Bool)
    (e o : ℝ) (h : EnergyReady order s spin d n e o) (hm : s.magneticAtoms order ≠ [])
    (hn : ∀ a ∈ s.magneticAtoms order, OneWord a.name.toList)
    (hr : ∀ k, (rnd k).Good (s.magneticAtoms order).length) (w : World)
    (hrun : script order lat recip pos g muB rnd fuel s none (.list [Str.lit "ferro"]) = some (w, .ok ())) :
    ∃ (dir : Atom → V3 ℝ) (x : ℝ), (∀ a ∈ s.magneticAtoms order, IsUnit3 (dir a)) ∧
      List.Forall₂ Entry.Near (entries float (resultsText F seed logo w))
        ((s.magneticAtoms order).map (fun a => .row a.name.toList (comps (pos a) ++ comps (dir a))) ++ [.ferro x]) ∧
      ∀ (Γ : Type) [AddCommGroup Γ] [Fintype Γ] (c : Config ℝ Γ), c.Repeats dir →
        Fintype.card Γ * x =
          (if d then 1 else 2) * e * c.bonds spin s.exchangeItems + e ^ 2 / o * c.sites spin s.onSiteItems := by
  obtain ⟨dir, x, h1, h2, h3⟩ := C68_ferro_report hord lat recip pos g muB rnd fuel s spin d n e o h hm hr w hrun
  refine ⟨dir, x, h1, ?_, h3⟩
  have hrows : Closed ((s.magneticAtoms order).map fun a => Rec.spin a.name (pos a) (dir a)) := by
    revert hn
    generalize s.magneticAtoms order = as
    intro hn
    induction as with
    | nil => exact .nil
    | cons a as ih =>
      refine .one (by simp) ?_ (ih fun b hb => hn b (by simp [hb]))
      intro n p e he
      simp only [Rec.spin.injEq] at he
      rw [← he.1]
      exact hn a (by simp)
  have htail : Closed [.summary, .ferro x] := .one (by simp) (by simp) (.one (by simp) (by simp) .nil)
  have hc : Closed w.recs := by
    rw [h2, List.append_assoc]
    exact .one (by simp) (by simp) (.one (by simp) (by simp) (hrows.append htail))
  rw [resultsText, entries_break, hl, List.nil_append]
  have := read_fine (F := F) hF hw hs (Or.inl hc)
  rw [h2, List.filterMap_append, List.filterMap_append, List.filterMap_map] at this
  have e1 : (s.magneticAtoms order).filterMap (Rec.entry ∘ fun a => .spin a.name (pos a) (dir a)) =
      (s.magneticAtoms order).map fun a => .row a.name.toList (comps (pos a) ++ comps (dir a)) := by
    rw [← List.filterMap_eq_map]
    rfl
  rw [e1, ← h2] at this
  exact this

/-! ### The names of the history files -/

/-- Full statement: after the minimisations of the antiferro case, every history file is announced by its name in the
results file. -/
def C86_announced_statement (F : NumFmt ℝ) (seed logo : Str) : Prop :=
  ∀ (env : Env) (w : World) (es : List ℝ), minimizeAntiferro env {} = some (w, .ok es) →
    ∀ q f, Rec.history q f ∈ w.recs → fileName seed f ∈ announced (resultsText F seed logo w)

/-- **C86 is false of the code (names of the history files).** The line which announces the history file of an antiferro
state has no line break at its end (line 79), so that the next text is joined to the name: no history file is announced by
its name, in no run in which all minimisations are finished. -/
theorem C86_announced (hF : Reads F float) (hs : ∀ c ∈ seed, Str.isSpace c = false)
    (hl : ∀ l ∈ Logo.linesOf logo, ¬ Str.lit "History for" <+: l) (hn : env.Named) {w : World} {es : List ℝ}
    (h : minimizeAntiferro env {} = some (w, .ok es)) (f : HistFile) :
    fileName seed f ∉ announced (resultsText F seed logo w) := by
  have hc : Closed w.recs := by
    have := sound_loop hn qrels 0 [] (({} : World).write [.start (Str.lit "antiferromagnetic")])
      (closed_write .nil (.one (by simp) (by simp) .nil))
    rw [minimizeAntiferro] at h
    rw [h] at this
    exact this
  intro hm
  simp only [announced, List.mem_filterMap] at hm
  obtain ⟨x, hx, he⟩ := hm
  split at he
  · rename_i ha
    rw [resultsText, linesOf_break, List.mem_append] at hx
    rcases hx with hx | hx
    · exact hl x hx ha
    · obtain ⟨q, f', s, i, rfl⟩ := closed_lines hF hs hc hx ha
      have hlen : 14 ≤ (fileName seed f).length := by
        cases f <;> simp [fileName, Str.lit]
        omega
      rcases doneText_last s i (render F seed (.history q f')) with h1 | h1
      · rw [h1] at he
        simp only [Option.some.injEq] at he
        rw [← he] at hlen
        exact absurd hlen (by decide)
      · rw [h1] at he
        simp only [Option.some.injEq] at he
        rw [← he] at hlen
        exact absurd hlen (by decide)
  · cases he

theorem one_named : one.Named := by
  intro a ha
  simp only [one, List.mem_singleton] at ha
  subst ha
  exact ⟨by decide, by decide⟩

theorem C86_announced_false (hF : Reads F float) (hs : ∀ c ∈ seed, Str.isSpace c = false)
    (hl : ∀ l ∈ Logo.linesOf logo, ¬ Str.lit "History for" <+: l) : ¬ C86_announced_statement F seed logo := by
  intro hst
  have hfull : one.Full := by
    intro job n s hs
    simp only [one, Option.some.injEq, Except.ok.injEq] at hs
    subst hs
    rfl
  obtain ⟨w, h1, h2, -⟩ := C68_history (env := one) hfull (by simp [one]) {} (one_ok _ _)
  refine C86_announced hF hs hl one_named h1 (.antiferro 1) (hst one w _ h1 ![-1, -1, -1] _ ?_)
  rw [h2]
  have h3 : nonzero = ![-1, -1, -1] :: nonzero.tail := by decide
  rw [h3, List.mapIdx_cons, List.flatten_cons]
  simp [afBlock, fileNumber]

/-! ### Examples -/

/-- The hypotheses about formatting, parsing and the logo. -/
example : Reads (decimal (K := ℝ)) sciOf ∧ NoNumbers (sciOf (K := ℝ)) ∧
    entries sciOf (Str.lit "Magnopy\nGenerated on 1 May 2025 at 10:00:00") = [] ∧
    ∀ l ∈ Logo.linesOf (Str.lit "Magnopy\nGenerated on 1 May 2025 at 10:00:00"), ¬ Str.lit "History for" <+: l := by
  refine ⟨decimal_reads, ⟨rfl, rfl⟩, rfl, by decide⟩

/-- The hypotheses of `C86_tables`, and what the file should show. -/
example : one.Named ∧ one.AllOk 0 (jobs one.recip [Str.lit "ferro", Str.lit "spiral"]) ∧
    one.told (Str.lit "spiral") 1 =
      [.row (Str.lit "Fe1") [0, 0, 0, 0, 0, 1], .cone [1, 0, 0], .vector [0, 0, 0]] ∧
    one.toldEnergy (Str.lit "ferro") 0 = .ferro 1 ∧ one.toldEnergy (Str.lit "spiral") 1 = .spiral 3 := by
  refine ⟨one_named, one_ok _ _, ?_, ?_, ?_⟩
  · rw [Env.told, if_neg ne_sf]
    rfl
  · rw [Env.toldEnergy, if_pos rfl]
    rfl
  · rw [Env.toldEnergy, if_neg ne_sf]
    rfl

/-- A row as text. -/
example (F : NumFmt ℝ) : render F (Str.lit "minim") (.spin "Fe1" 0 ![0, 0, 1]) =
    Str.lit "    Fe1 " ++ cell F 0 ++ ' ' :: cell F 0 ++ ' ' :: cell F 0 ++ ' ' :: cell F 0 ++ ' ' :: cell F 0 ++ ' ' :: cell F 1 ++
      ['\n'] := by
  simp [render, cells, padL, Str.lit]

end Magnopy.Minimize
