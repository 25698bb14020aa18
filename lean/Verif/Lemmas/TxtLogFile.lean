import Verif.Lemmas.TxtLogBonds
import Verif.Props.TxtSections

/-!
# Lemmas: the messages about a whole model file
-/

set_option autoImplicit false
set_option linter.unusedSectionVars false

namespace Magnopy.Txt

open Log

/-! ### The sections of the file -/

theorem keys_nodup_foldl {γ : Type*} (f : γ → Str) (g : γ → ℕ × ℕ) (bs : List γ) (d : PyDict Str (ℕ × ℕ)) (hd : d.keys.Nodup) :
    (bs.foldl (fun d p => d.set (f p) (g p)) d).keys.Nodup := by
  induction bs generalizing d with
  | nil => exact hd
  | cons b bs ih =>
    rw [List.foldl_cons]
    refine ih _ ?_
    by_cases h : f b ∈ d.keys
    · rw [PyDict.keys_set_of_mem h]; exact hd
    · rw [PyDict.keys_set_of_notMem h]
      exact List.nodup_append.2 ⟨hd, List.nodup_singleton _, fun a ha c hc => by
        rw [List.mem_singleton.1 hc]; rintro rfl; exact h ha⟩

theorem found_nodup (lines : List Str) : (sections lines).2.keys.Nodup :=
  keys_nodup_foldl _ _ _ _ List.nodup_nil

theorem filter_pairwise (file : List Str) : (filter file).Pairwise fun p q => p.2 < q.2 :=
  List.pairwise_map.1 (C44_kept file).2

theorem filter_lines (file : List Str) : Lines (LineAt file) (filter file) where
  at' l hl := (C44_kept file).1 l.1 l.2 |>.1 hl
  clean l hl := filter_clean file l.1 (List.mem_map_of_mem hl)

/-- What is known about a section of the file. -/
structure IsSection (file : List Str) (name : Str) (s : List Line) : Prop where
  ne : s ≠ []
  sub : ∀ l ∈ s, l ∈ filter file
  sorted : s.Pairwise fun p q => p.2 < q.2

theorem found_block {file : List Str} {name : Str} {p : ℕ × ℕ}
    (h : (sections ((filter file).map Prod.fst)).2.get? name = some p) : p.1 < p.2 ∧ p.2 ≤ (filter file).length := by
  obtain ⟨bs, h1, -, -, h4⟩ := C45_sections _ (filter_clean file)
  obtain ⟨b, a, h5, -, -⟩ := (h4 name p).1 h
  have B := h1 p (by rw [h5]; simp)
  exact ⟨B.lt, by simpa using B.le⟩

theorem sectionOf_found {file : List Str} {name : Str} {p : ℕ × ℕ}
    (h : (sections ((filter file).map Prod.fst)).2.get? name = some p) :
    sectionOf file name = some (sliceL (filter file) p) := by
  rw [sectionOf, h]; rfl

theorem sectionOf_is {file : List Str} {name : Str} {s : List Line} (h : sectionOf file name = some s) :
    IsSection file name s := by
  rw [sectionOf, Option.map_eq_some_iff] at h
  obtain ⟨p, hp, rfl⟩ := h
  obtain ⟨h1, h2⟩ := found_block hp
  exact ⟨sliceL_ne h1 h2, fun l hl => (sliceL_infix _ p).subset hl, (filter_pairwise file).sublist (sliceL_infix _ p).sublist⟩

theorem IsSection.lines {file : List Str} {name : Str} {s : List Line} (h : IsSection file name s) :
    Lines (LineAt file) s := (filter_lines file).sub h.sub

/-- The lines of a section with the condition that they are lines of the section. -/
theorem IsSection.own {file : List Str} {name : Str} {s : List Line} (h : IsSection file name s) :
    Lines (fun n l => (l, n) ∈ s) s := ⟨fun _ hl => hl, fun l hl => h.lines.clean l hl⟩

theorem mem_sliceL {ls : List Line} {p : ℕ × ℕ} {x : Line} (h : x ∈ sliceL ls p) :
    ∃ i, p.1 ≤ i ∧ i < p.2 ∧ ls[i]? = some x := by
  obtain ⟨j, hj⟩ := List.mem_iff_getElem?.1 h
  rw [sliceL, List.getElem?_drop] at hj
  have hlt : p.1 + j < p.2 := by
    by_contra hc
    rw [List.getElem?_take_eq_none (by omega)] at hj
    simp at hj
  exact ⟨p.1 + j, by omega, hlt, by rwa [List.getElem?_take_of_lt hlt] at hj⟩

theorem line_index {file : List Str} {i j n : ℕ} {l l' : Str} (hi : (filter file)[i]? = some (l, n))
    (hj : (filter file)[j]? = some (l', n)) : i = j := by
  have H := List.pairwise_iff_getElem.1 (filter_pairwise file)
  obtain ⟨hi1, hi2⟩ := List.getElem?_eq_some_iff.1 hi
  obtain ⟨hj1, hj2⟩ := List.getElem?_eq_some_iff.1 hj
  rcases lt_trichotomy i j with h | h | h
  · have := H i j hi1 hj1 h
    rw [hi2, hj2] at this
    exact absurd this (lt_irrefl _)
  · exact h
  · have := H j i hj1 hi1 h
    rw [hi2, hj2] at this
    exact absurd this (lt_irrefl _)

/-- Different sections have no line in common. -/
theorem section_unique {file : List Str} {a b : Str} {s t : List Line} {n : ℕ} {l l' : Str} (hs : sectionOf file a = some s)
    (ht : sectionOf file b = some t) (h1 : (l, n) ∈ s) (h2 : (l', n) ∈ t) : a = b := by
  rw [sectionOf, Option.map_eq_some_iff] at hs ht
  obtain ⟨p, hp, rfl⟩ := hs
  obtain ⟨q, hq, rfl⟩ := ht
  obtain ⟨i, i1, i2, i3⟩ := mem_sliceL h1
  obtain ⟨j, j1, j2, j3⟩ := mem_sliceL h2
  have e := line_index i3 j3
  subst e
  obtain ⟨bs, B, hsort, -, h4⟩ := C45_sections _ (filter_clean file)
  obtain ⟨b1, a1, e1, ⟨x, w, k1, k2, k3⟩, -⟩ := (h4 a p).1 hp
  obtain ⟨b2, a2, e2, ⟨y, v, m1, m2, m3⟩, -⟩ := (h4 b q).1 hq
  have hpb : p ∈ bs := by rw [e1]; simp
  have hqb : q ∈ bs := by rw [e2]; simp
  have : p = q := by
    obtain ⟨c, hc⟩ := List.mem_iff_getElem?.1 hpb
    obtain ⟨d, hd⟩ := List.mem_iff_getElem?.1 hqb
    obtain ⟨hc1, hc2⟩ := List.getElem?_eq_some_iff.1 hc
    obtain ⟨hd1, hd2⟩ := List.getElem?_eq_some_iff.1 hd
    have H := List.pairwise_iff_getElem.1 hsort
    rcases lt_trichotomy c d with h | h | h
    · have := H c d hc1 hd1 h
      rw [hc2, hd2] at this
      omega
    · subst h; rw [← hc2, ← hd2]
    · have := H d c hd1 hc1 h
      rw [hc2, hd2] at this
      omega
  subst this
  rw [k1] at m1
  cases m1
  rw [← k3, ← m3, ← Str.first_spec k2, ← Str.first_spec m2]

section
variable {K : Type} [Field K] [LinearOrder K] {L : Lib K}

/-! ### The sections other than the atoms -/

theorem sectionLog_fits {file : List Str} {names : List Str} {at' : ℕ → Str → Prop} {name : Str} {s : List Line}
    (hs : sectionOf file name = some s) (H : Lines at' s) (found : PyDict Str (ℕ × ℕ)) :
    Fits (Msg.Holds L (sectionOf file) names at') (badSection L found names name (s.map Prod.fst))
      (sectionLog L found names name s) := by
  have S := sectionOf_is hs
  unfold sectionLog badSection
  simp only
  by_cases h1 : name = Str.lit "cell"
  · rw [if_pos h1, if_pos h1]; exact cellLog_fits (h1 ▸ hs) H S.ne
  rw [if_neg h1, if_neg h1]
  by_cases h2 : name = Str.lit "notation"
  · rw [if_pos h2, if_pos h2]; exact notationLog_fits (h2 ▸ hs) H S.ne S.sorted _ _
  rw [if_neg h2, if_neg h2]
  by_cases h3 : name = Str.lit "exchange"
  · rw [if_pos h3, if_pos h3]; exact exchangeLog_fits (h3 ▸ hs) H S.ne
  rw [if_neg h3, if_neg h3]
  by_cases h4 : name = Str.lit "on-site"
  · rw [if_pos h4, if_pos h4]; exact onSiteLog_fits (h4 ▸ hs) H S.ne
  rw [if_neg h4, if_neg h4]
  by_cases h5 : name = Str.lit "cone-axis"
  · rw [if_pos h5, if_pos h5]; exact coneLog_fits (h5 ▸ hs) H S.ne
  rw [if_neg h5, if_neg h5]
  by_cases h6 : name = Str.lit "spiral-vector"
  · rw [if_pos h6, if_pos h6]; exact spiralLog_fits (h6 ▸ hs) H S.ne
  rw [if_neg h6, if_neg h6]
  exact Fits.nil

theorem badSection_atoms (found : PyDict Str (ℕ × ℕ)) (names : List Str) (ls : List Str) :
    badSection L found names (Str.lit "atoms") ls = false := by
  unfold badSection
  simp only
  rw [if_neg (by decide), if_neg (by decide), if_neg (by decide), if_neg (by decide), if_neg (by decide), if_neg (by decide)]

theorem badSection_unsupported {name : Str} (h : name ∉ supported) (found : PyDict Str (ℕ × ℕ)) (names : List Str)
    (ls : List Str) : badSection L found names name ls = false := by
  have hn : ∀ t : Str, t ∈ supported → name ≠ t := fun t ht e => h (e ▸ ht)
  unfold badSection
  simp only
  rw [if_neg (hn _ (by decide)), if_neg (hn _ (by decide)), if_neg (hn _ (by decide)), if_neg (hn _ (by decide)),
    if_neg (hn _ (by decide)), if_neg (hn _ (by decide))]

/-- The loop over the found sections. -/
theorem sectionsFold_fits {file : List Str} {names : List Str} {found : PyDict Str (ℕ × ℕ)}
    (hf : found = (sections ((filter file).map Prod.fst)).2) {d : List (Str × (ℕ × ℕ))}
    (hd : ∀ p ∈ d, found.get? p.1 = some p.2) {acc : Log} {a : Bool}
    (ha : Fits (Msg.Holds L (sectionOf file) names (LineAt file)) a acc) :
    Fits (Msg.Holds L (sectionOf file) names (LineAt file))
      (a || d.any fun p => badSection L found names p.1 (slice ((filter file).map Prod.fst) p.2))
      (d.foldl (fun acc p =>
        if p.1 = Str.lit "atoms" then acc
        else if supported.contains p.1 then acc.orElse (sectionLog L found names p.1 (sliceL (filter file) p.2))
        else acc.and (warn true (.warnSection p.1))) acc) := by
  induction d generalizing acc a with
  | nil => exact ha.cast (by simp)
  | cons p d ih =>
    rw [List.foldl_cons, List.any_cons, ← Bool.or_assoc]
    have hp := hd p List.mem_cons_self
    rw [hf] at hp
    have hs := sectionOf_found hp
    refine ih (fun q hq => hd q (List.mem_cons_of_mem _ hq)) ?_
    by_cases h1 : p.1 = Str.lit "atoms"
    · rw [if_pos h1, h1, badSection_atoms, Bool.or_false]; exact ha
    rw [if_neg h1]
    by_cases h2 : supported.contains p.1 = true
    · rw [if_pos h2, ← sliceL_fst]
      exact ha.orElse (sectionLog_fits hs (sectionOf_is hs).lines found)
    · rw [if_neg h2, badSection_unsupported (by simpa using h2)]
      exact ha.and (Fits.warn (m := .warnSection p.1) rfl fun _ => ⟨by rw [hs]; rfl, by simpa [supported] using h2⟩)

theorem sectionsLog_fits {file : List Str} {names : List Str} {found : PyDict Str (ℕ × ℕ)}
    (hf : found = (sections ((filter file).map Prod.fst)).2) {acc : Log} {a : Bool}
    (ha : Fits (Msg.Holds L (sectionOf file) names (LineAt file)) a acc) :
    Fits (Msg.Holds L (sectionOf file) names (LineAt file))
      (a || found.any fun p => badSection L found names p.1 (slice ((filter file).map Prod.fst) p.2))
      (sectionsLog L found names (filter file) acc) :=
  sectionsFold_fits hf (fun p hp => PyDict.get?_of_mem (hf ▸ found_nodup _) hp) ha

/-! ### The whole file -/

theorem verifyLog_fits (file : List Str) :
    match verify L ((filter file).map Prod.fst) with
    | .error e => (verifyLog L (filter file)).2 = .error e ∧
        ∃ b, Fits (Msg.Holds L (sectionOf file) (namesOf file) (LineAt file)) b (verifyLog L (filter file)).1
    | .ok r => (verifyLog L (filter file)).2 = .ok r.2 ∧
        Fits (Msg.Holds L (sectionOf file) (namesOf file) (LineAt file)) r.1 (verifyLog L (filter file)).1 := by
  unfold verify verifyLog
  simp only
  set lines := filter file with hlines
  set found := (sections (lines.map Prod.fst)).2 with hfound
  have h0 : Fits (Msg.Holds L (sectionOf file) (namesOf file) (LineAt file)) (sections (lines.map Prod.fst)).1
      (scanLog '=' lines lines.length 0 nil) := by
    refine (scanLog_fits (Or.inr rfl) (filter_lines file) lines.length 0 Fits.nil).cast ?_
    rw [sections]; simp [hlines]
  have none' : ∀ name : Str, (found.get? name).isNone = true → sectionOf file name = none := fun name h => by
    rw [Option.isNone_iff_eq_none] at h
    rw [sectionOf, ← hlines, ← hfound, h]; rfl
  have h1 : Fits (Msg.Holds L (sectionOf file) (namesOf file) (LineAt file))
      ((sections (lines.map Prod.fst)).1 || ((found.get? (Str.lit "cell")).isNone || (found.get? (Str.lit "atoms")).isNone))
      (((scanLog '=' lines lines.length 0 nil).and
        (msg (found.get? (Str.lit "cell")).isNone (.noSection (Str.lit "cell")))).and
        (msg (found.get? (Str.lit "atoms")).isNone (.noSection (Str.lit "atoms")))) :=
    ((h0.and (Fits.msg (m := .noSection (Str.lit "cell")) rfl fun h => ⟨Or.inl rfl, none' _ h⟩)).and
      (Fits.msg (m := .noSection (Str.lit "atoms")) rfl fun h => ⟨Or.inr rfl, none' _ h⟩)).cast (Bool.or_assoc _ _ _)
  cases hat : found.get? (Str.lit "atoms") with
  | none =>
    rw [hat] at h1
    have hn : namesOf file = [] := by rw [namesOf, none' _ (by rw [hat]; rfl)]; rfl
    rw [hn] at h1 ⊢
    exact ⟨rfl, (sectionsLog_fits hfound h1).cast (by simp)⟩
  | some p =>
    rw [hat] at h1
    have hs := sectionOf_found hat
    have hn : namesOf file = nameColumn (sliceL lines p) := by rw [namesOf, hs]; rfl
    have A := atomsLog_fits (L := L) (names := namesOf file) hs (sectionOf_is hs).lines (sectionOf_is hs).ne
    rw [sliceL_fst, ← hlines] at A
    simp only
    cases hv : verifyAtoms L (slice (lines.map Prod.fst) p) with
    | error e =>
      rw [hv] at A
      obtain ⟨A1, b, A2⟩ := A
      simp only [A1]
      exact ⟨trivial, _, h1.and A2⟩
    | ok r =>
      rw [hv] at A
      obtain ⟨A1, A2, A3⟩ := A
      simp only [A1]
      rw [← hn] at A3
      rw [A3]
      exact ⟨trivial, sectionsLog_fits hfound (h1.and A2)⟩

end

end Magnopy.Txt
