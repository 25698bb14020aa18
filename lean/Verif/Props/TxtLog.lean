import Verif.Lemmas.TxtLogFile
import Verif.Props.TxtLoad

/-!
# C102, C103: the log of the verification of a model file
-/

set_option autoImplicit false
set_option linter.unusedSectionVars false

namespace Magnopy.Txt

open Log

section
variable {K : Type} [Field K] [LinearOrder K]

/-! ### C102: the log explains why a file is refused -/

/-- **C102, refused files.** The verification raises the same exception and finds the same sections whether or not its log
is looked at, and without an exception a file is refused exactly if the log has at least one error message. -/
theorem C102_refused (L : Lib K) (file : List Str) :
    verify L ((filter file).map Prod.fst) =
      (verifyLog L (filter file)).2.map fun found => ((verifyLog L (filter file)).1.out.any Msg.isError, found) := by
  have H := verifyLog_fits (L := L) file
  cases hv : verify L ((filter file).map Prod.fst) with
  | error e =>
    rw [hv] at H
    rw [H.1]; rfl
  | ok r =>
    rw [hv] at H
    rw [H.1, ← H.2.told, H.2.flag]; rfl

/-- **C102, true messages.** Everything the log says about the file is true, for every file, accepted or not, also if the
verification ends with an exception. -/
theorem C102_holds (L : Lib K) (file : List Str) {m : Msg} (hm : m ∈ (verifyLog L (filter file)).1.out) :
    m.Holds L (sectionOf file) (namesOf file) (LineAt file) := by
  have H := verifyLog_fits (L := L) file
  cases hv : verify L ((filter file).map Prod.fst) with
  | error e =>
    rw [hv] at H
    obtain ⟨-, b, H⟩ := H
    exact H.holds m hm
  | ok r =>
    rw [hv] at H
    exact H.2.holds m hm

theorem Msg.Holds.line {L : Lib K} {sec : Str → Option (List Line)} {names : List Str} {at' : ℕ → Str → Prop} {m : Msg}
    {n : ℕ} (h : m.Holds L sec names at') (hn : m.line = some n) : ∃ l, at' n l := by
  cases m <;> simp only [Msg.line, Option.some.injEq, reduceCtorEq] at hn <;> subst hn <;> simp only [Msg.Holds] at h
  case atomName => obtain ⟨l, h, -⟩ := h; exact ⟨l, h⟩
  case noUnits => obtain ⟨l, h, -⟩ := h; exact ⟨l, h⟩
  case units => obtain ⟨l, k, h, -⟩ := h; exact ⟨l, h⟩
  case header => obtain ⟨l, h, -⟩ := h; exact ⟨l, h⟩
  case blockLines => obtain ⟨l, h, -⟩ := h; exact ⟨l, h⟩
  case amount => obtain ⟨-, l, h, -⟩ := h; exact ⟨l, h⟩
  case number => obtain ⟨-, l, i, h, -⟩ := h; exact ⟨l, h⟩
  case size => obtain ⟨-, s, l, -, -, h, -⟩ := h; exact ⟨l, h⟩
  case atLeast => obtain ⟨-, s, l, -, -, h, -⟩ := h; exact ⟨l, h⟩
  case short => exact ⟨_, h.2.2⟩
  case vector => obtain ⟨l, h, -⟩ := h; exact ⟨l, h⟩
  case repeated => obtain ⟨l, h, -⟩ := h; exact ⟨l, h⟩
  case noName => obtain ⟨l, h, -⟩ := h; exact ⟨l, h⟩
  case position => obtain ⟨l, h, -⟩ := h; exact ⟨l, h⟩
  case atomBlocks => exact ⟨_, h.1⟩
  case atomNumber => obtain ⟨-, -, l, i, h, -⟩ := h; exact ⟨l, h⟩
  case duplicates => obtain ⟨s, l, l', -, -, h, -⟩ := h; exact ⟨l, h⟩
  case twoBlocks => exact ⟨_, h.1⟩
  case twice => obtain ⟨l, v, l', n', w', v', h, -⟩ := h; exact ⟨l, h⟩
  case missing => obtain ⟨s, l, -, -, h, -⟩ := h; exact ⟨l, h⟩
  case value => obtain ⟨l, c, t, h, -⟩ := h; exact ⟨l, h⟩
  case bondHead => obtain ⟨l, h, -⟩ := h; exact ⟨l, h⟩
  case bondAtom => obtain ⟨-, l, i, h, -⟩ := h; exact ⟨l, h⟩
  case integers => obtain ⟨l, a, b, h, -⟩ := h; exact ⟨l, h⟩
  case bondTwice => obtain ⟨s, b, l, l', -, -, -, h, -⟩ := h; exact ⟨l, h⟩
  case bondEmpty => obtain ⟨s, b, l, l', -, -, -, h, -⟩ := h; exact ⟨l, h⟩
  case siteHead => exact ⟨_, h.1⟩
  case siteAtom => obtain ⟨-, l, h, -⟩ := h; exact ⟨l, h⟩
  case siteEnd => obtain ⟨s, l, -, -, h, -⟩ := h; exact ⟨l, h⟩
  case warnKeywords => obtain ⟨-, l, h, -⟩ := h; exact ⟨l, h⟩

/-- **C102, lines.** A line number in the log is the number, counted from 1, of a line of the file that has more than
comments and white space. -/
theorem C102_line (L : Lib K) (file : List Str) {m : Msg} (hm : m ∈ (verifyLog L (filter file)).1.out) {n : ℕ}
    (hn : m.line = some n) : ∃ l, LineAt file n l := (C102_holds L file hm).line hn

/-! ### C103: which faults are reported -/

theorem shortLog_only {sym : Char} {l : Line} {m : Msg} (h : m ∈ (shortLog sym l).out) : ∃ n k, m = .short n sym k := by
  unfold shortLog Log.msg at h
  split_ifs at h
  · exact ⟨_, _, List.mem_singleton.1 h⟩
  · simp at h

theorem skipLog_only {sym : Char} (ls : List Line) {m : Msg} (h : m ∈ (skipLog sym ls).out) : ∃ n k, m = .short n sym k := by
  induction ls with
  | nil => simp [skipLog, Log.nil] at h
  | cons l ls ih =>
    rw [skipLog] at h
    split_ifs at h
    · simp [Log.nil] at h
    · rcases List.mem_append.1 h with h | h
      · exact shortLog_only h
      · exact ih h

theorem bodyLog_only {sym : Char} (ls : List Line) (acc : Log) {m : Msg} (h : m ∈ (bodyLog sym acc ls).out) :
    m ∈ acc.out ∨ ∃ n k, m = .short n sym k := by
  induction ls generalizing acc with
  | nil => exact Or.inl h
  | cons l ls ih =>
    rw [bodyLog] at h
    split_ifs at h
    · exact Or.inl h
    · rcases ih _ h with h | h
      · unfold Log.orElse at h
        split_ifs at h
        · exact Or.inl h
        · rcases List.mem_append.1 h with h | h
          · exact Or.inl h
          · exact Or.inr (shortLog_only h)
      · exact Or.inr h

theorem scanLog_only {sym : Char} (ls : List Line) (fuel i : ℕ) (acc : Log) {m : Msg}
    (h : m ∈ (scanLog sym ls fuel i acc).out) : m ∈ acc.out ∨ ∃ n k, m = .short n sym k := by
  induction fuel generalizing i acc with
  | zero => exact Or.inl h
  | succ fuel ih =>
    have ha : ∀ {m}, m ∈ (acc.and (skipLog sym (ls.drop i))).out → m ∈ acc.out ∨ ∃ n k, m = .short n sym k := fun h => by
      rcases List.mem_append.1 h with h | h
      · exact Or.inl h
      · exact Or.inr (skipLog_only _ h)
    rw [scanLog] at h
    simp only at h
    split_ifs at h
    · exact Or.inl h
    · exact ha h
    · rcases ih _ _ h with h | h
      · rcases bodyLog_only _ _ h with h | h
        · exact ha h
        · exact Or.inr h
      · exact Or.inr h

theorem orElse_mem {g h : Log} {m : Msg} (hm : m ∈ (g.orElse h).out) : m ∈ g.out ∨ (g.err = false ∧ m ∈ h.out) := by
  unfold Log.orElse at hm
  split_ifs at hm with he
  · exact Or.inl hm
  · rcases List.mem_append.1 hm with h | h
    · exact Or.inl h
    · exact Or.inr ⟨eq_false_of_ne_true he, h⟩

theorem orElse_err (g h : Log) : (g.orElse h).err = (g.err || h.err) := by
  unfold Log.orElse
  split_ifs with he
  · simp [he]
  · simp [eq_false_of_ne_true he]

/-- The error messages about sections other than the atoms come from one section. -/
theorem fold_one {f : Str × (ℕ × ℕ) → Log} (hf : ∀ p, (f p).err = (f p).out.any Msg.isError) (d : List (Str × (ℕ × ℕ)))
    (acc : Log) :
    let r := d.foldl (fun acc p =>
      if p.1 = Str.lit "atoms" then acc
      else if supported.contains p.1 then acc.orElse (f p)
      else acc.and (warn true (.warnSection p.1))) acc
    (∀ m ∈ r.out, m.isError = true → m ∈ acc.out) ∨
      acc.err = false ∧ ∃ q ∈ d, q.1 ≠ Str.lit "atoms" ∧ ∀ m ∈ r.out, m.isError = true → m ∈ acc.out ∨ m ∈ (f q).out := by
  induction d generalizing acc with
  | nil => exact Or.inl fun m hm _ => hm
  | cons p d ih =>
    simp only [List.foldl_cons]
    by_cases h1 : p.1 = Str.lit "atoms"
    · simp only [if_pos h1]
      exact (ih acc).imp_right fun ⟨h, q, hq, hr⟩ => ⟨h, q, List.mem_cons_of_mem _ hq, hr⟩
    · simp only [if_neg h1]
      by_cases h2 : supported.contains p.1 = true
      · simp only [if_pos h2]
        have he := orElse_err acc (f p)
        by_cases h3 : acc.err = true
        · have : acc.orElse (f p) = acc := by unfold Log.orElse; rw [if_pos h3]
          rw [this]
          refine (ih acc).imp_right fun ⟨h, _⟩ => ?_
          rw [h3] at h; cases h
        · have h3' := eq_false_of_ne_true h3
          rcases ih (acc.orElse (f p)) with h | ⟨h, q, hq, hq1, hr⟩
          · refine Or.inr ⟨h3', p, List.mem_cons_self, h1, fun m hm hme => ?_⟩
            exact (orElse_mem (h m hm hme)).imp_right And.right
          · refine Or.inr ⟨h3', q, List.mem_cons_of_mem _ hq, hq1, fun m hm hme => ?_⟩
            rcases hr m hm hme with hr | hr
            · rcases orElse_mem hr with hr | hr
              · exact Or.inl hr
              · rw [h, h3', Bool.false_or] at he
                have := hf p
                rw [← he] at this
                have h5 := List.any_eq_false.1 this.symm m hr.2
                exact absurd hme h5
            · exact Or.inr hr
      · simp only [if_neg h2]
        have key : ∀ m ∈ (acc.and (warn true (.warnSection p.1))).out, m.isError = true → m ∈ acc.out := fun m hm hme => by
          rcases List.mem_append.1 hm with hm | hm
          · exact hm
          · have : m = .warnSection p.1 := by simpa [Log.warn] using hm
            subst this
            cases hme
        rcases ih (acc.and (warn true (.warnSection p.1))) with h | ⟨h, q, hq, hq1, hr⟩
        · exact Or.inl fun m hm hme => key m (h m hm hme) hme
        · refine Or.inr ⟨?_, q, List.mem_cons_of_mem _ hq, hq1, fun m hm hme => ?_⟩
          · simpa [Log.and, Log.warn] using h
          · exact (hr m hm hme).imp_left fun h => key m h hme

/-- The messages sent before the sections other than the atoms are looked at. -/
theorem before_in {L : Lib K} {file : List Str} {g : Log}
    (hg : ∀ m ∈ g.out, (∃ n k, m = .short n '=' k) ∨ (∃ s, m = .noSection s) ∨
      ∃ s, sectionOf file (Str.lit "atoms") = some s ∧ m.Holds L (sectionOf file) (namesOf file) fun n l => (l, n) ∈ s)
    {m : Msg} (hm : m ∈ g.out) (hs : ∀ n k, m ≠ .short n '=' k) {n : ℕ} (hn : m.line = some n) {name : Str}
    (hi : InSection file name n) : name = Str.lit "atoms" := by
  rcases hg m hm with ⟨n', k, h⟩ | ⟨s, h⟩ | ⟨s, h1, h2⟩
  · exact absurd h (hs _ _)
  · rw [h] at hn; simp [Msg.line] at hn
  · obtain ⟨l, hl⟩ := h2.line hn
    obtain ⟨t, l', ht, hl'⟩ := hi
    exact section_unique ht h1 hl' hl

/-- **C103, one section.** If the log has an error about a line of a section other than "atoms" (a too short separator of
sections excepted) then no required section is missing and every line number in an error message of the log is in that same
section: faults in any other section, in the atoms and in the separators of sections are not in the log. -/
theorem C103_one_section (L : Lib K) (file : List Str) {m m' : Msg} (hm : m ∈ (verifyLog L (filter file)).1.out)
    (he : m.isError = true) (hs : ∀ n k, m ≠ .short n '=' k) {n : ℕ} (hn : m.line = some n) {name : Str}
    (hname : name ≠ Str.lit "atoms") (hi : InSection file name n) (hm' : m' ∈ (verifyLog L (filter file)).1.out)
    (he' : m'.isError = true) :
    (∀ s, m' ≠ .noSection s) ∧ ∀ n', m'.line = some n' → InSection file name n' := by
  set lines := filter file with hlines
  set found := (sections (lines.map Prod.fst)).2 with hfound
  set g := ((scanLog '=' lines lines.length 0 nil).and
        (msg (found.get? (Str.lit "cell")).isNone (.noSection (Str.lit "cell")))).and
        (msg (found.get? (Str.lit "atoms")).isNone (.noSection (Str.lit "atoms"))) with hg
  have none' : ∀ name : Str, (found.get? name).isNone = true → sectionOf file name = none := fun name h => by
    rw [Option.isNone_iff_eq_none] at h
    rw [sectionOf, ← hlines, ← hfound, h]; rfl
  have gtold : g.err = g.out.any Msg.isError := by
    have h0 : Fits (Msg.Holds L (sectionOf file) (namesOf file) (LineAt file)) _
      (scanLog '=' lines lines.length 0 nil) := scanLog_fits (Or.inr rfl) (filter_lines file) lines.length 0 Fits.nil
    exact ((h0.and (Fits.msg (m := .noSection (Str.lit "cell")) rfl fun h => ⟨Or.inl rfl, none' _ h⟩)).and
      (Fits.msg (m := .noSection (Str.lit "atoms")) rfl fun h => ⟨Or.inr rfl, none' _ h⟩)).told
  have gmem : ∀ m ∈ g.out, (∃ n k, m = .short n '=' k) ∨ (∃ s, m = Msg.noSection s) := by
    intro m hm
    have hmsg : ∀ {c : Bool} {s : Str}, m ∈ (msg c (.noSection s)).out → ∃ s, m = Msg.noSection s := fun {c s} h => by
      unfold Log.msg at h
      split_ifs at h
      · exact ⟨_, List.mem_singleton.1 h⟩
      · simp at h
    rcases List.mem_append.1 hm with hm | hm
    · rcases List.mem_append.1 hm with hm | hm
      · rcases scanLog_only _ _ _ _ hm with hm | hm
        · simp [Log.nil] at hm
        · exact Or.inl hm
      · exact Or.inr (hmsg hm)
    · exact Or.inr (hmsg hm)
  -- the loop over the sections, from any log of messages sent before
  have gerr : ∀ h : Log, (g.and h).err = false → ∀ s, s = Str.lit "cell" ∨ s = Str.lit "atoms" → sectionOf file s ≠ none := by
    intro h hh s hs' hnone
    have : (found.get? s).isNone = true := by
      rw [sectionOf, Option.map_eq_none_iff, ← hlines, ← hfound] at hnone
      rw [hnone]; rfl
    have e : g.err = ((scanLog '=' lines lines.length 0 nil).err || (found.get? (Str.lit "cell")).isNone ||
        (found.get? (Str.lit "atoms")).isNone) := by
      have hmsg : ∀ (c : Bool) (m : Msg), (msg c m).err = c := fun c m => by cases c <;> rfl
      rw [hg]
      simp only [Log.and, hmsg]
    simp only [Log.and, e, Bool.or_eq_false_iff] at hh
    rcases hs' with rfl | rfl
    · rw [this] at hh; simp at hh
    · rw [this] at hh; simp at hh
  have main : ∀ acc : Log, acc.err = acc.out.any Msg.isError →
      (acc.err = false → ∀ s, s = Str.lit "cell" ∨ s = Str.lit "atoms" → sectionOf file s ≠ none) →
      (∀ m ∈ acc.out, (∃ n k, m = .short n '=' k) ∨ (∃ s, m = .noSection s) ∨
        ∃ s, sectionOf file (Str.lit "atoms") = some s ∧ m.Holds L (sectionOf file) (namesOf file) fun n l => (l, n) ∈ s) →
      m ∈ (sectionsLog L found (namesOf file) lines acc).out → m' ∈ (sectionsLog L found (namesOf file) lines acc).out →
      (∀ s, m' ≠ .noSection s) ∧ ∀ n', m'.line = some n' → InSection file name n' := by
    intro acc htold hreq hacc h1 h2
    have hfits : ∀ p ∈ found, sectionOf file p.1 = some (sliceL lines p.2) := fun p hp =>
      sectionOf_found (PyDict.get?_of_mem (found_nodup _) hp)
    set f : Str × (ℕ × ℕ) → Log := fun p => if p ∈ found then sectionLog L found (namesOf file) p.1 (sliceL lines p.2) else nil
      with hfdef
    have hfold : sectionsLog L found (namesOf file) lines acc = found.foldl (fun acc p =>
        if p.1 = Str.lit "atoms" then acc
        else if supported.contains p.1 then acc.orElse (f p)
        else acc.and (warn true (.warnSection p.1))) acc := by
      unfold sectionsLog
      refine List.foldl_ext _ _ _ fun a p hp => ?_
      rw [hfdef]
      simp only [if_pos hp]
    have hf : ∀ p, (f p).err = (f p).out.any Msg.isError := fun p => by
      by_cases hp : p ∈ found
      · simp only [hfdef, if_pos hp]
        exact (sectionLog_fits (L := L) (names := namesOf file) (hfits p hp) (sectionOf_is (hfits p hp)).lines found).told
      · simp only [hfdef, if_neg hp]; rfl
    rw [hfold] at h1 h2
    rcases fold_one hf found acc with H | ⟨H0, q, hq, hq1, H⟩
    · exact absurd (before_in hacc (H m h1 he) hs hn hi) hname
    · have none : ∀ x ∈ acc.out, x.isError = true → False := fun x hx hxe => by
        rw [H0] at htold
        exact List.any_eq_false.1 htold.symm x hx hxe
      have hm1 := (H m h1 he).resolve_left fun h => none m h he
      have hm2 := (H m' h2 he').resolve_left fun h => none m' h he'
      simp only [hfdef, if_pos hq] at hm1 hm2
      have S := sectionLog_fits (L := L) (names := namesOf file) (hfits q hq) (sectionOf_is (hfits q hq)).own found
      obtain ⟨l, hl⟩ := (S.holds m hm1).line hn
      obtain ⟨t, l', ht, hl'⟩ := hi
      have e := section_unique ht (hfits q hq) hl' hl
      refine ⟨fun s hsm => ?_, fun n' hn' => ?_⟩
      · have h3 := S.holds m' hm2
        rw [hsm] at h3
        exact hreq H0 _ h3.1 h3.2
      · obtain ⟨l2, hl2⟩ := (S.holds m' hm2).line hn'
        exact ⟨_, l2, e ▸ hfits q hq, hl2⟩
  have gnil : g.and nil = g := by simp [Log.and, Log.nil]
  unfold verifyLog at hm hm'
  simp only at hm hm'
  rw [← hfound, ← hg] at hm hm'
  cases hat : found.get? (Str.lit "atoms") with
  | none =>
    have hn0 : namesOf file = [] := by rw [namesOf, none' _ (by rw [hat]; rfl)]; rfl
    rw [hat] at hm hm'
    simp only at hm hm'
    rw [← hn0] at hm hm'
    exact main g gtold (gnil ▸ gerr nil) (fun m hm => (gmem m hm).imp_right Or.inl) hm hm'
  | some p =>
    have hsec := sectionOf_found hat
    have hnames : namesOf file = nameColumn (sliceL lines p) := by rw [namesOf, hsec]; rfl
    have A := atomsLog_fits (L := L) (names := namesOf file) hsec (sectionOf_is hsec).own (sectionOf_is hsec).ne
    rw [sliceL_fst, ← hlines] at A
    have hacc : ∀ {b : Bool} (_ : Fits (Msg.Holds L (sectionOf file) (namesOf file) fun n l => (l, n) ∈ sliceL lines p) b
        (atomsLog L (sliceL lines p)).1), ∀ m ∈ (g.and (atomsLog L (sliceL lines p)).1).out,
        (∃ n k, m = .short n '=' k) ∨ (∃ s, m = .noSection s) ∨
        ∃ s, sectionOf file (Str.lit "atoms") = some s ∧ m.Holds L (sectionOf file) (namesOf file) fun n l => (l, n) ∈ s :=
      fun F m hm => by
        rcases List.mem_append.1 hm with hm | hm
        · exact (gmem m hm).imp_right Or.inl
        · exact Or.inr (Or.inr ⟨_, hsec, F.holds m hm⟩)
    have told : ∀ {b : Bool} (_ : Fits (Msg.Holds L (sectionOf file) (namesOf file) fun n l => (l, n) ∈ sliceL lines p) b
        (atomsLog L (sliceL lines p)).1), (g.and (atomsLog L (sliceL lines p)).1).err =
        (g.and (atomsLog L (sliceL lines p)).1).out.any Msg.isError := fun F => by
      simp only [Log.and, List.any_append, gtold, F.told]
    rw [hat] at hm hm'
    simp only at hm hm'
    cases hv : verifyAtoms L (slice (lines.map Prod.fst) p) with
    | error e =>
      rw [hv] at A
      obtain ⟨A1, b, A2⟩ := A
      simp only [A1] at hm hm'
      exact absurd (before_in (hacc A2) hm hs hn hi) hname
    | ok r =>
      rw [hv] at A
      obtain ⟨A1, A2, A3⟩ := A
      simp only [A1] at hm hm'
      rw [A3, ← hnames] at hm hm'
      exact main _ (told A2) (gerr _) (hacc A2) hm hm'

theorem all_mem {ls : List Log} {g : Log} (hg : g ∈ ls) {m : Msg} (hm : m ∈ g.out) : m ∈ (Log.all ls).out := by
  induction ls with
  | nil => cases hg
  | cons a ls ih =>
    rw [Log.all]
    rcases List.mem_cons.1 hg with rfl | hg
    · exact List.mem_append_left _ hm
    · exact List.mem_append_right _ (ih hg)

theorem orElse_left {g h : Log} {m : Msg} (hm : m ∈ g.out) : m ∈ (g.orElse h).out := by
  unfold Log.orElse
  split_ifs
  · exact hm
  · exact List.mem_append_left _ hm

theorem atomsLoopLog_left (L : Lib K) (n : ℕ) (ni : Option ℕ) (ls : List Line) (acc : Log) {m : Msg} (hm : m ∈ acc.out) :
    m ∈ (atomsLoopLog L n ni acc ls).1.out := by
  induction ls generalizing acc with
  | nil => exact hm
  | cons l ls ih =>
    rw [atomsLoopLog.eq_def]
    simp only
    cases ni with
    | none => exact ih _ (List.mem_append_left _ (List.mem_append_left _ hm))
    | some i =>
      simp only
      cases l.1.split[i]? with
      | none => exact List.mem_append_left _ hm
      | some name => exact ih _ (List.mem_append_left _ (orElse_left (List.mem_append_left _ hm)))

/-- What is sent for every line of the table of atoms. -/
theorem atomsLoopLog_all (L : Lib K) (n : ℕ) (ni : Option ℕ) (ls : List Line) (acc : Log) {names : List Str}
    (hr : (atomsLoopLog L n ni acc ls).2 = .ok names) {l : Line} (hl : l ∈ ls) :
    (l.1.split.length ≠ n → .atomBlocks l.2 n l.1 ∈ (atomsLoopLog L n ni acc ls).1.out) ∧
    ∀ i w, l.1.split[i]? = some w → L.float w = none → w ≠ ['-'] → ni ≠ some i →
      .atomNumber l.2 (i + 1) w ∈ (atomsLoopLog L n ni acc ls).1.out := by
  have blocks : ∀ i w, l.1.split[i]? = some w → L.float w = none → w ≠ ['-'] → ni ≠ some i →
      Msg.atomNumber l.2 (i + 1) w ∈ (blocksLog L l.2 ni l.1.split).out := fun i w h1 h2 h3 h4 => by
    refine all_mem (List.mem_map_of_mem (a := (w, i)) ?_) ?_
    · exact List.mem_zipIdx_iff_getElem?.2 h1
    · have : (decide (ni ≠ some i) && (!isFloat L w && w != ['-'])) = true := by
        simp [h4, isFloat, h2, h3]
      simp only [this, Log.msg, if_true, List.mem_singleton]
  have count : l.1.split.length ≠ n → Msg.atomBlocks l.2 n l.1 ∈
      (msg (decide (l.1.split.length ≠ n)) (.atomBlocks l.2 n l.1)).out := fun h => by
    simp [Log.msg, h]
  induction ls generalizing acc names with
  | nil => cases hl
  | cons x ls ih =>
    rw [atomsLoopLog.eq_def] at hr ⊢
    simp only at hr ⊢
    cases ni with
    | none =>
      simp only at hr ⊢
      rcases List.mem_cons.1 hl with rfl | hl
      · exact ⟨fun h => atomsLoopLog_left L n none ls _ (List.mem_append_left _ (List.mem_append_right _ (count h))),
          fun i w h1 h2 h3 h4 => atomsLoopLog_left L n none ls _ (List.mem_append_right _ (blocks i w h1 h2 h3 h4))⟩
      · exact ih _ hr hl
    | some k =>
      simp only at hr ⊢
      cases hk : x.1.split[k]? with
      | none => rw [hk] at hr; cases hr
      | some name =>
        rw [hk] at hr
        simp only at hr ⊢
        rcases List.mem_cons.1 hl with rfl | hl
        · exact ⟨fun h => atomsLoopLog_left L n _ ls _ (List.mem_append_left _ (orElse_left (List.mem_append_right _ (count h)))),
            fun i w h1 h2 h3 h4 => atomsLoopLog_left L n _ ls _ (List.mem_append_right _ (blocks i w h1 h2 h3 h4))⟩
        · cases hq : (atomsLoopLog L n (some k) (((acc.and (msg (decide (x.1.split.length ≠ n)) (.atomBlocks x.2 n x.1))).orElse
              (nameLog L name x.2)).and (blocksLog L x.2 (some k) x.1.split)) ls).2 with
          | error e => rw [hq] at hr; cases hr
          | ok r => exact ih _ hq hl

theorem sectionsLog_left (L : Lib K) (found : PyDict Str (ℕ × ℕ)) (names : List Str) (lines : List Line) (acc : Log) {m : Msg}
    (hm : m ∈ acc.out) : m ∈ (sectionsLog L found names lines acc).out := by
  unfold sectionsLog
  generalize hd : (fun (acc : Log) (p : Str × (ℕ × ℕ)) =>
    if p.1 = Str.lit "atoms" then acc
    else if supported.contains p.1 then acc.orElse (sectionLog L found names p.1 (sliceL lines p.2))
    else acc.and (warn true (.warnSection p.1))) = f
  have hf : ∀ acc p, m ∈ acc.out → m ∈ (f acc p).out := fun acc p h => by
    rw [← hd]
    simp only
    split_ifs
    · exact h
    · exact orElse_left h
    · exact List.mem_append_left _ h
  clear hd
  induction found generalizing acc with
  | nil => exact hm
  | cons p d ih => exact ih _ (hf acc p hm)

theorem sectionsLog_warns (L : Lib K) (found : PyDict Str (ℕ × ℕ)) (names : List Str) (lines : List Line) (acc : Log)
    {p : Str × (ℕ × ℕ)} (hp : p ∈ found) (hs : p.1 ∉ supported) :
    .warnSection p.1 ∈ (sectionsLog L found names lines acc).out := by
  unfold sectionsLog
  generalize hd : (fun (acc : Log) (p : Str × (ℕ × ℕ)) =>
    if p.1 = Str.lit "atoms" then acc
    else if supported.contains p.1 then acc.orElse (sectionLog L found names p.1 (sliceL lines p.2))
    else acc.and (warn true (.warnSection p.1))) = f
  have hf : ∀ m acc p, m ∈ acc.out → m ∈ (f acc p).out := fun m acc p h => by
    rw [← hd]
    simp only
    split_ifs
    · exact h
    · exact orElse_left h
    · exact List.mem_append_left _ h
  have hf' : ∀ acc, Msg.warnSection p.1 ∈ (f acc p).out := fun acc => by
    have h1 : p.1 ≠ Str.lit "atoms" := fun e => hs (by rw [e]; decide)
    rw [← hd]
    simp only [if_neg h1, if_neg (show ¬ supported.contains p.1 = true by simpa using hs)]
    exact List.mem_append_right _ (by simp [Log.warn])
  have left : ∀ (d : List (Str × (ℕ × ℕ))) m acc, m ∈ acc.out → m ∈ (d.foldl f acc).out := fun d m => by
    induction d with
    | nil => exact fun _ h => h
    | cons q d ih => exact fun acc h => ih _ (hf m acc q h)
  clear hd
  induction found generalizing acc with
  | nil => cases hp
  | cons q d ih =>
    rcases List.mem_cons.1 hp with rfl | hp
    · exact left d _ _ (hf' acc)
    · exact ih _ hp

/-- **C103, table of atoms.** If the verification ends without an exception then every line of the table of atoms with a
wrong number of blocks is reported, and every block besides the name that is neither a number nor "-", whatever else is
wrong with the file. -/
theorem C103_atoms (L : Lib K) (file : List Str) {found : PyDict Str (ℕ × ℕ)} (hv : (verifyLog L (filter file)).2 = .ok found)
    {s : List Line} (hs : sectionOf file (Str.lit "atoms") = some s) {h l : Line} (hh : s[1]? = some h) (hl : l ∈ s.drop 2) :
    (l.1.split.length ≠ h.1.split.length →
      .atomBlocks l.2 h.1.split.length l.1 ∈ (verifyLog L (filter file)).1.out) ∧
    ∀ i w, l.1.split[i]? = some w → L.float w = none → w ≠ ['-'] → (lowWords h.1).idxOf? (Str.lit "name") ≠ some i →
      .atomNumber l.2 (i + 1) w ∈ (verifyLog L (filter file)).1.out := by
  have h3 : ¬ s.length < 3 := fun h => by
    rw [List.drop_eq_nil_of_le (by omega)] at hl; cases hl
  rw [sectionOf, Option.map_eq_some_iff] at hs
  obtain ⟨p, hp, hps⟩ := hs
  have e : sliceL (filter file) p = s := hps
  unfold verifyLog at hv ⊢
  simp only at hv ⊢
  rw [hp] at hv ⊢
  simp only at hv ⊢
  rw [e] at hv ⊢
  have hD : s.getD 1 ([], 0) = h := by rw [List.getD_eq_getElem?_getD, hh]; rfl
  have hlen : (atomsHeaderLog h).1 = h.1.split.length := rfl
  have hidx : (atomsHeaderLog h).2.1 = (lowWords h.1).idxOf? (Str.lit "name") := by
    rw [lowWords_eq]; rfl
  have A : ∀ x, (atomsLog L s).2 = .ok x → _ := fun x hx => by
    unfold atomsLog at hx
    simp only [if_neg h3, hD] at hx
    cases hr : (atomsLoopLog L (atomsHeaderLog h).1 (atomsHeaderLog h).2.1
        ((headerLog (s.headD ([], 0)) [['a'], ['b']]).and (atomsHeaderLog h).2.2) (s.drop 2)).2 with
    | error y => rw [hr] at hx; cases hx
    | ok y => exact atomsLoopLog_all L _ _ _ _ hr hl
  have B : ∀ x, (atomsLog L s).2 = .ok x → ∀ m, m ∈ (atomsLoopLog L (atomsHeaderLog h).1 (atomsHeaderLog h).2.1
        ((headerLog (s.headD ([], 0)) [['a'], ['b']]).and (atomsHeaderLog h).2.2) (s.drop 2)).1.out →
      m ∈ (atomsLog L s).1.out := fun x hx m hm => by
    unfold atomsLog at hx ⊢
    simp only [if_neg h3, hD] at hx ⊢
    cases hr : (atomsLoopLog L (atomsHeaderLog h).1 (atomsHeaderLog h).2.1
        ((headerLog (s.headD ([], 0)) [['a'], ['b']]).and (atomsHeaderLog h).2.2) (s.drop 2)).2 with
    | error y => exact hm
    | ok y => exact List.mem_append_left _ hm
  cases hx : (atomsLog L s).2 with
  | error y => rw [hx] at hv; cases hv
  | ok names =>
    simp only
    obtain ⟨A1, A2⟩ := A names hx
    rw [hlen] at A1
    refine ⟨fun hne => ?_, fun i w h1 h2 h4 h5 => ?_⟩
    · exact sectionsLog_left L _ _ _ _ (List.mem_append_right _ (B names hx _ (A1 hne)))
    · exact sectionsLog_left L _ _ _ _ (List.mem_append_right _ (B names hx _ (A2 i w h1 h2 h4 (hidx ▸ h5))))

/-- **C103, warnings.** If the verification ends without an exception then every section with an unknown keyword is
reported, whatever is wrong with the file. -/
theorem C103_unknown_sections (L : Lib K) (file : List Str) {found : PyDict Str (ℕ × ℕ)}
    (hv : (verifyLog L (filter file)).2 = .ok found) {name : Str} (hs : (sectionOf file name).isSome)
    (hn : name ∉ ["cell", "atoms", "notation", "exchange", "on-site", "cone-axis", "spiral-vector"].map Str.lit) :
    .warnSection name ∈ (verifyLog L (filter file)).1.out := by
  rw [sectionOf, Option.isSome_map, Option.isSome_iff_exists] at hs
  obtain ⟨p, hp⟩ := hs
  have hmem := PyDict.mem_of_get? hp
  unfold verifyLog at hv ⊢
  simp only at hv ⊢
  cases hat : (sections ((filter file).map Prod.fst)).2.get? (Str.lit "atoms") with
  | none => exact sectionsLog_warns L _ _ _ _ hmem hn
  | some q =>
    rw [hat] at hv
    simp only at hv ⊢
    cases hx : (atomsLog L (sliceL (filter file) q)).2 with
    | error y => rw [hx] at hv; cases hv
    | ok names => exact sectionsLog_warns L _ _ _ _ hmem hn

end

/-! ### Examples and where the log misleads -/

open TxtExample

namespace LogExample

/-- A file with an unknown atom in the exchange section (line 20) and, in the notation, a word instead of true or false. -/
def wrong (word : String) : List Str :=
  file [cellSec, atomSec', ["Notation", "double-counting true", "spin-normalized " ++ word, "exchange-factor 0.5",
    "on-site-factor -1"], ["Exchange K", "----------", "Fe Ni 1 0 0", "Iso 1", "Dmi 0 0 1"]]

/-- A file with a word instead of a number. -/
def wrongNumber : List Str :=
  file [cellSec, atomSec', notationSec, ["Exchange K", "----------", "Fe Co 1 0 0", "Iso 1", "Dmi x 0 1"]]

/-- A file without a column of names. -/
def noNames : List Str := file [cellSec, ["Atoms", "r1 r2 r3", "0 0 0", "0.5 0.5 0.5"]]

end LogExample

open LogExample

example : (verifyLog libLower (filter full)).1.out = [.warnKeywords 8 [Str.lit "mass"]] := by decide +kernel

example : (verifyLog libLower (filter (wrong "false"))).1.out =
    [.warnKeywords 8 [Str.lit "mass"], .bondAtom 20 2 (Str.lit "Ni")] := by decide +kernel

/-- The premises of `C103_one_section` occur. -/
example : InSection (wrong "false") (Str.lit "exchange") 20 :=
  ⟨_, Str.lit "Fe Ni 1 0 0", rfl, by decide +kernel⟩

/-- Two wrong blocks in the table of atoms (`C103_atoms`) and an unknown section (`C103_unknown_sections`). -/
example : (verifyLog libLower (filter (file [cellSec, ["Atoms", "Name r1 r2 r3", "Fe 0 u 0", "Co 0.5 0.5 v"],
    ["Symmetry", "none"]]))).1.out =
    [.atomNumber 9 3 ['u'], .atomNumber 10 4 ['v'], .warnSection (Str.lit "symmetry")] := by decide +kernel

theorem lineAt_mem {file : List Str} {n : ℕ} {l : Str} (h : LineAt file n l) : (l, n) ∈ filter file :=
  ((C44_kept file).1 l n).2 h

/-- **C102, words: false.** A message "Line n, block k: expected a number, got w" does not mean that w is the block number k of
line n: after a keyword the blocks are counted without the keyword. -/
theorem C102_block_false : ¬ ∀ (file : List Str) (n block : ℕ) (w : Str),
    .number n block w ∈ (verifyLog libLower (filter file)).1.out →
      ∃ l, LineAt file n l ∧ (lowWords l)[block - 1]? = some w := by
  intro h
  obtain ⟨l, h1, h2⟩ := h wrongNumber 22 1 (Str.lit "x") (by decide +kernel)
  have key : ∀ p ∈ filter wrongNumber, p.2 = 22 → (lowWords p.1)[0]? ≠ some (Str.lit "x") := by decide +kernel
  exact key _ (lineAt_mem h1) rfl h2

/-- **C102, names: false.** The message about repeated names of atoms is also sent if no name is repeated. -/
theorem C102_duplicates_false : ¬ ∀ (file : List Str) (n last count : ℕ),
    .duplicates n last count ∈ (verifyLog libLower (filter file)).1.out → ¬ (namesOf file).Nodup := by
  intro h
  exact h noNames 9 10 0 (by decide +kernel) (by decide +kernel)

/-- **C103, all faults: false.** The fault of line 20 is reported, but not any more if there is another fault in line 14. -/
theorem C103_all_false : (∃ n, wrong "maybe" = (wrong "false").set n (Str.lit "spin-normalized maybe")) ∧
    (∃ m ∈ (verifyLog libLower (filter (wrong "false"))).1.out, m.isError = true ∧ m.line = some 20) ∧
    (∃ m ∈ (verifyLog libLower (filter (wrong "maybe"))).1.out, m.isError = true ∧ m.line = some 14) ∧
    ∀ m ∈ (verifyLog libLower (filter (wrong "maybe"))).1.out, m.line ≠ some 20 := by
  refine ⟨⟨13, by decide +kernel⟩, by decide +kernel, by decide +kernel, by decide +kernel⟩

end Magnopy.Txt
