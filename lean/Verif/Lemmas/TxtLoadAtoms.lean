import Verif.Lemmas.TxtLoad

/-!
# Lemmas: the atoms section of an accepted file
-/

set_option autoImplicit false
set_option linter.unusedSectionVars false

namespace Magnopy

open Txt

section
variable {K : Type} [Field K]

/-- What an accepted data header contains. -/
structure HeaderFacts (hdr : List Str) (i : ℕ) : Prop where
  name : hdr.idxOf? (Str.lit "name") = some i
  position : (Str.lit "r1" ∈ hdr ∧ Str.lit "r2" ∈ hdr ∧ Str.lit "r3" ∈ hdr) ∨
    (Str.lit "r1" ∉ hdr ∧ ['x'] ∈ hdr ∧ ['y'] ∈ hdr ∧ ['z'] ∈ hdr)
  cartesian : Str.lit "sx" ∈ hdr → Str.lit "sy" ∈ hdr ∧ Str.lit "sz" ∈ hdr
  angles : Str.lit "sp" ∈ hdr → Str.lit "st" ∈ hdr ∧ Str.lit "s" ∈ hdr

theorem mem_sortStr {w : Str} {l : List Str} : w ∈ sortStr l ↔ w ∈ l := by
  rw [sortStr, List.mem_insertionSort]

theorem header_facts {line : Str} (h : (atomsHeader line).2.2 = false) :
    (atomsHeader line).1 = line.lower.split.length ∧
    ∃ i, (atomsHeader line).2.1 = some i ∧ HeaderFacts line.lower.split i := by
  refine ⟨by simp [atomsHeader, Str.split_lower], ?_⟩
  simp only [atomsHeader, Bool.or_eq_false_iff] at h ⊢
  obtain ⟨⟨⟨⟨⟨-, h1⟩, h2⟩, h3⟩, -⟩, -⟩ := h
  set hdr := line.lower.split
  set ks := ((hdr.erase (Str.lit "name")).erase ['q']).erase ['g'] with hks
  have sub : ∀ w, w ∈ ks → w ∈ hdr := fun w h => List.mem_of_mem_erase (List.mem_of_mem_erase (List.mem_of_mem_erase h))
  have sup : ∀ w, w ≠ Str.lit "name" → w ≠ ['q'] → w ≠ ['g'] → w ∈ hdr → w ∈ ks := fun w a b c h =>
    (List.mem_erase_of_ne c).2 ((List.mem_erase_of_ne b).2 ((List.mem_erase_of_ne a).2 h))
  cases hi : hdr.idxOf? (Str.lit "name") with
  | none => rw [hi] at h1; simp at h1
  | some i =>
    refine ⟨i, rfl, hi, ?_, ?_, ?_⟩
    · set position := sortStr (ks.filter fun w => Str.startsWith w ['r'] || inXyz w) with hp
      have mp : ∀ w, w ∈ position → w ∈ hdr := fun w h => sub w (List.mem_filter.1 (mem_sortStr.1 h)).1
      simp only [Bool.not_eq_false', Bool.or_eq_true, decide_eq_true_eq] at h2
      rcases h2 with (h2 | h2) | h2
      · left
        exact ⟨mp _ (by rw [h2]; simp), mp _ (by rw [h2]; simp), mp _ (by rw [h2]; simp)⟩
      · right
        refine ⟨fun hr => ?_, mp _ (by rw [h2]; simp), mp _ (by rw [h2]; simp), mp _ (by rw [h2]; simp)⟩
        have : Str.lit "r1" ∈ position := mem_sortStr.2 (List.mem_filter.2
          ⟨sup _ (by decide) (by decide) (by decide) hr, by decide⟩)
        rw [h2] at this
        exact absurd this (by decide)
      · left
        exact ⟨mp _ (by rw [h2]; simp), mp _ (by rw [h2]; simp), mp _ (by rw [h2]; simp)⟩
    all_goals
      set spin := sortStr (ks.filter fun w => !(Str.startsWith w ['r'] || inXyz w) && Str.startsWith w ['s']) with hp
      have mp : ∀ w, w ∈ spin → w ∈ hdr := fun w h => sub w (List.mem_filter.1 (mem_sortStr.1 h)).1
      intro hin
      have hmem : _ ∈ spin := mem_sortStr.2 (List.mem_filter.2
          ⟨sup _ (by decide) (by decide) (by decide) hin, by decide +kernel⟩)
      simp only [badVector, Bool.not_eq_false', Bool.or_eq_true, decide_eq_true_eq] at h3
      rcases h3 with ((((h3 | h3) | h3) | h3) | h3) | h3
      all_goals
        rw [h3] at hmem mp
        first
          | exact absurd hmem (by decide)
          | exact ⟨mp _ (by decide), mp _ (by decide)⟩

/-- What an accepted atom line contains. -/
structure LineFacts (L : Lib K) (hdr : List Str) (i : ℕ) (l : Str) : Prop where
  length : l.split.length = hdr.length
  words : ∀ (j : ℕ) w, j ≠ i → l.split[j]? = some w → (L.float w).isSome ∨ w = ['-']
  name : ∃ w, l.split[i]? = some w

theorem atomsLoop_facts {L : Lib K} {hdr : List Str} {i : ℕ} {ls : List Str} {names : List Str}
    (h : atomsLoop L hdr.length (some i) ls = .ok (names, false)) :
    (∀ l ∈ ls, LineFacts L hdr i l) ∧ names = ls.map fun l => l.split.getD i [] := by
  induction ls generalizing names with
  | nil => 
    simp only [atomsLoop, Except.ok.injEq, Prod.mk.injEq] at h
    simp [← h.1]
  | cons l ls ih =>
    rw [atomsLoop] at h
    cases hw : l.split[i]? with
    | none => rw [hw] at h; simp at h
    | some name =>
      rw [hw] at h
      simp only at h
      cases hr : atomsLoop L hdr.length (some i) ls with
      | error e => rw [hr] at h; simp at h
      | ok r =>
        rw [hr] at h
        simp only [Except.ok.injEq, Prod.mk.injEq, Bool.or_eq_false_iff] at h
        obtain ⟨h1, ⟨⟨h2, -⟩, h3⟩, h4⟩ := h
        obtain ⟨ih1, ih2⟩ := ih (names := r.1) (by rw [hr, ← h4])
        refine ⟨fun x hx => ?_, ?_⟩
        · rcases List.mem_cons.1 hx with rfl | hx
          · refine ⟨by simpa using h2, fun j w hj hjw => ?_, ⟨name, hw⟩⟩
            have := List.any_eq_false.1 h3 w (List.mem_eraseIdx_iff_getElem?.2 ⟨j, hj, hjw⟩)
            by_contra hc
            simp only [not_or, Bool.not_eq_true] at hc
            exact this (by simp [isFloat, hc.1, hc.2])
          · exact ih1 x hx
        · rw [← h1, ih2, List.map_cons, List.getD_eq_getElem?_getD, hw]
          rfl

theorem idxOf?_mem {hdr : List Str} {k : Str} (h : k ∈ hdr) : ∃ i, hdr.idxOf? k = some i ∧ hdr[i]? = some k := by
  cases hi : hdr.idxOf? k with
  | none => exact absurd h (List.idxOf?_eq_none_iff.1 hi)
  | some i =>
    refine ⟨i, rfl, ?_⟩
    obtain ⟨h1, h2⟩ := List.findIdx?_eq_some_iff_findIdx_eq.1 hi
    rw [List.getElem?_eq_getElem h1]
    have := List.findIdx_getElem (w := h2 ▸ h1) (xs := hdr) (p := (· == k))
    simpa [h2] using this

theorem column_ok {L : Lib K} {hdr : List Str} {i : ℕ} {l : Str} (hf : HeaderFacts hdr i) (hl : LineFacts L hdr i l)
    (hh : ∀ (j : ℕ) (k : Str), hdr[j]? = some k → k ∈ readKeys → l.split[j]? ≠ some ['-']) {k : Str} (hk : k ∈ hdr)
    (hr : k ∈ readKeys) : ∃ x, column L hdr l.split k = .ok x := by
  obtain ⟨j, h1, h2⟩ := idxOf?_mem hk
  have hne : k ≠ Str.lit "name" := by
    intro e
    rw [e] at hr
    exact absurd hr (by decide)
  have hname : hdr[i]? = some (Str.lit "name") := by
    obtain ⟨i', h3, h4⟩ := idxOf?_mem (k := Str.lit "name") (hdr := hdr) (by
      by_contra hc
      have := hf.name
      rw [List.idxOf?_eq_none_iff.2 hc] at this
      simp at this)
    rw [hf.name, Option.some.injEq] at h3
    rw [h3]; exact h4
  have hji : j ≠ i := by
    rintro rfl
    rw [h2, Option.some.injEq] at hname
    exact hne hname
  have hlt : j < l.split.length := by
    rw [hl.length]
    exact (List.getElem?_eq_some_iff.1 h2).1
  have hw := List.getElem?_eq_getElem hlt
  rcases hl.words j _ hji hw with h | h
  · obtain ⟨x, hx⟩ := Option.isSome_iff_exists.1 h
    refine ⟨x, ?_⟩
    rw [column, h1]
    simp only [word, hw, Except.bind, parse, hx]
  · exact absurd (hw.trans (congrArg some h)) (hh j k h2 hr)

theorem column3_ok {L : Lib K} {hdr ws : List Str} {a b c : Str} (ha : ∃ x, column L hdr ws a = .ok x)
    (hb : ∃ x, column L hdr ws b = .ok x) (hc : ∃ x, column L hdr ws c = .ok x) : ∃ v, column3 L hdr ws a b c = .ok v := by
  obtain ⟨x, hx⟩ := ha
  obtain ⟨y, hy⟩ := hb
  obtain ⟨z, hz⟩ := hc
  exact ⟨![x, y, z], by rw [column3, hx, hy, hz]; rfl⟩

theorem readAtom_ok [DecidableEq K] {L : Lib K} {hdr : List Str} {i : ℕ} {l : Str} (hf : HeaderFacts hdr i)
    (hl : LineFacts L hdr i l)
    (hh : ∀ (j : ℕ) (k : Str), hdr[j]? = some k → k ∈ readKeys → l.split[j]? ≠ some ['-']) {cell : M3 K}
    (hd : det3 cell ≠ 0) (c : K) (scale : V3 K) :
    ∃ d, readAtom L cell c scale hdr l = .ok d ∧ d.name = l.split.getD i [] := by
  have col : ∀ {k : Str}, k ∈ hdr → k ∈ readKeys → ∃ x, column L hdr l.split k = .ok x := fun h1 h2 => column_ok hf hl hh h1 h2
  obtain ⟨name, hn⟩ := hl.name
  have h1 : atomName hdr l.split = .ok name := by rw [atomName, hf.name]; simp only [word, hn]
  have h2 : ∃ p, atomCoords L hdr l.split = .ok p := by
    rw [atomCoords]
    rcases hf.position with ⟨a, b, d⟩ | ⟨a, b, d, e⟩
    · rw [if_pos (Str.mem_iff.2 a)]
      exact column3_ok (col a (by decide)) (col b (by decide)) (col d (by decide))
    · rw [if_neg fun h => a (Str.mem_iff.1 h)]
      exact column3_ok (col b (by decide)) (col d (by decide)) (col e (by decide))
  have h3 : ∀ (k : Str) (x : K), k ∈ readKeys → ∃ y, columnOr L hdr l.split k x = .ok y := by
    intro k x hk
    rw [columnOr]
    by_cases h : Str.mem k hdr = true
    · rw [if_pos h]
      exact col (Str.mem_iff.1 h) hk
    · rw [if_neg h]
      exact ⟨x, rfl⟩
  have h4 : ∃ v, readSpin L hdr l.split = .ok v := by
    rw [readSpin]
    by_cases a : Str.mem (Str.lit "sx") hdr = true
    · rw [if_pos a]
      have m := Str.mem_iff.1 a
      obtain ⟨b, d⟩ := hf.cartesian m
      exact column3_ok (col m (by decide)) (col b (by decide)) (col d (by decide))
    · rw [if_neg a]
      by_cases b : Str.mem (Str.lit "sp") hdr = true
      · rw [if_pos b]
        have m := Str.mem_iff.1 b
        obtain ⟨d, e⟩ := hf.angles m
        obtain ⟨x, hx⟩ := col m (by decide)
        obtain ⟨y, hy⟩ := col d (by decide)
        obtain ⟨z, hz⟩ := col e (by decide)
        rw [hx, hy, hz]
        exact ⟨_, rfl⟩
      · rw [if_neg b]
        by_cases d : Str.mem (Str.lit "s") hdr = true
        · rw [if_pos d]
          obtain ⟨x, hx⟩ := col (Str.mem_iff.1 d) (by decide)
          rw [hx]
          exact ⟨_, rfl⟩
        · rw [if_neg d]
          exact ⟨_, rfl⟩
  obtain ⟨p, h2⟩ := h2
  obtain ⟨q, hq⟩ := h3 ['q'] 0 (by decide)
  obtain ⟨g, hg⟩ := h3 ['g'] 2 (by decide)
  obtain ⟨v, h4⟩ := h4
  have h5 : ∃ r, atomPos cell c scale hdr p = .ok r := by
    rw [atomPos]
    split_ifs
    · exact ⟨_, rfl⟩
    · rw [toRelative, if_neg hd]
      exact ⟨_, rfl⟩
  obtain ⟨r, h5⟩ := h5
  refine ⟨⟨name, r, v, q, g⟩, ?_, ?_⟩
  · rw [readAtom, h1, h2, hq, hg, h4]
    simp only [bind, Except.bind, h5]
  · rw [List.getD_eq_getElem?_getD, hn]; rfl

theorem readAtomLines_ok [DecidableEq K] {L : Lib K} {hdr : List Str} {i : ℕ} (hf : HeaderFacts hdr i) {ls : List Str}
    (hl : ∀ l ∈ ls, LineFacts L hdr i l)
    (hh : ∀ l ∈ ls, ∀ (j : ℕ) (k : Str), hdr[j]? = some k → k ∈ readKeys → l.split[j]? ≠ some ['-']) {cell : M3 K}
    (hd : det3 cell ≠ 0) (c : K) (scale : V3 K) :
    ∃ data, readAtomLines L cell c scale hdr ls = .ok data ∧
      data.map AtomData.name = ls.map fun l => l.split.getD i [] := by
  induction ls with
  | nil => exact ⟨[], rfl, rfl⟩
  | cons l ls ih =>
    obtain ⟨data, h1, h2⟩ := ih (fun x hx => hl x (List.mem_cons_of_mem _ hx)) (fun x hx => hh x (List.mem_cons_of_mem _ hx))
    obtain ⟨d, h3, h4⟩ := readAtom_ok hf (hl l List.mem_cons_self) (hh l List.mem_cons_self) hd c scale
    refine ⟨d :: data, ?_, by rw [List.map_cons, List.map_cons, h2, h4]⟩
    rw [readAtomLines, h3, h1]
    rfl

/-- The atoms of an accepted file are read, with different names. -/
theorem atoms_ok [LinearOrder K] {L : Lib K} {lines names : List Str} (h : verifyAtoms L lines = .ok (names, false))
    (hh : ∀ l ∈ lines.drop 2, ∀ (j : ℕ) (k : Str), (lines.getD 1 []).lower.split[j]? = some k → k ∈ readKeys →
      l.split[j]? ≠ some ['-']) {cell : M3 K} (hd : det3 cell ≠ 0) (scale : V3 K) :
    ∃ data, readAtoms L cell scale lines = .ok data ∧ data.map AtomData.name = names ∧ names.Nodup ∧
      ∀ w ∈ names, ∃ l ∈ lines.drop 2, w ∈ l.split := by
  rw [verifyAtoms] at h
  by_cases hn : lines.length < 3
  · rw [if_pos hn] at h; simp at h
  · rw [if_neg hn] at h
    simp only at h
    cases hr : atomsLoop L (atomsHeader (lines.getD 1 [])).1 (atomsHeader (lines.getD 1 [])).2.1 (lines.drop 2) with
    | error e => rw [hr] at h; simp at h
    | ok r =>
      rw [hr] at h
      simp only [Except.ok.injEq, Prod.mk.injEq, Bool.or_eq_false_iff, decide_eq_false_iff_not, not_not] at h
      obtain ⟨h1, ⟨⟨h2, h3⟩, h4⟩, h5⟩ := h
      obtain ⟨e1, i, e2, hf⟩ := header_facts h3
      rw [e1, e2] at hr
      obtain ⟨f1, f2⟩ := atomsLoop_facts (names := r.1) (by rw [hr, ← h4])
      have hc : ∃ c : K, atomFactor (atomUnits (lines.headD [])) = .ok c := by
        unfold atomFactor atomUnits
        rw [Str.split_lower]
        rcases header_ok h2 with ⟨w, e⟩ | ⟨w, u, x, e, hx, hs⟩
        · rw [e]
          exact ⟨1, rfl⟩
        · rw [e]
          simp only [List.map_cons, List.map_nil]
          split_ifs
          · exact ⟨1, rfl⟩
          · apply lengthFactor_ok
            rcases List.mem_cons.1 hx with rfl | hx
            · exact Or.inl hs
            · rw [List.mem_singleton] at hx
              subst hx
              exact Or.inr hs
      obtain ⟨c, hc⟩ := hc
      obtain ⟨data, h6, h7⟩ := readAtomLines_ok hf f1 hh hd c scale
      refine ⟨data, ?_, by rw [h7, ← h1, f2], ?_, ?_⟩
      · unfold readAtoms
        rw [hc]
        exact h6
      · have hlen : r.1.length = lines.length - 2 := by rw [f2, List.length_map, List.length_drop]
        rw [← h1]
        have := List.Sublist.eq_of_length (List.dedup_sublist r.1) (by rw [h5, hlen])
        rw [← this]
        exact List.nodup_dedup _
      · intro w hw
        rw [← h1, f2] at hw
        obtain ⟨l, hl, rfl⟩ := List.mem_map.1 hw
        refine ⟨l, hl, ?_⟩
        obtain ⟨w, hw⟩ := (f1 l hl).name
        rw [List.getD_eq_getElem?_getD, hw]
        exact List.mem_of_getElem? hw

end
end Magnopy
