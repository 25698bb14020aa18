import Verif.Model.TxtFile
import Verif.Props.TxtLoad

/-!
# C104: the filtered copy of a model file
-/

set_option autoImplicit false
set_option linter.unusedSectionVars false

namespace Magnopy.Txt

/-! ### Lines of a text -/

theorem newlines_self {s : Str} (h : '\r' ∉ s) : newlines s = s := by
  induction s with
  | nil => rfl
  | cons c s ih =>
    rw [List.mem_cons, not_or] at h
    rw [newlines.eq_def]
    simp only
    rw [if_neg (fun e => h.1 e.symm), ih h.2]

theorem newlines_no (n : ℕ) (s : Str) (hn : s.length ≤ n) : '\r' ∉ newlines s := by
  induction n generalizing s with
  | zero =>
    have : s = [] := List.length_eq_zero_iff.1 (by omega)
    subst this; simp [newlines]
  | succ n ih =>
    cases s with
    | nil => simp [newlines]
    | cons c s =>
      rw [List.length_cons] at hn
      rw [newlines.eq_def]
      simp only
      by_cases h : c = '\r'
      · rw [if_pos h]
        split
        · rename_i t
          rw [List.length_cons] at hn
          simp only [List.mem_cons, not_or]
          exact ⟨by decide, ih t (by omega)⟩
        · simp only [List.mem_cons, not_or]
          exact ⟨by decide, ih _ (by omega)⟩
      · rw [if_neg h]
        simp only [List.mem_cons, not_or]
        exact ⟨fun e => h e.symm, ih s (by omega)⟩

/-- A line is what stands before a newline, with the newline if there is one. -/
theorem readlines_lines (s : Str) : ∀ a ∈ readlines s, ∃ l, '\n' ∉ l ∧ (∀ c ∈ l, c ∈ s) ∧ (a = l ∨ a = l ++ ['\n']) := by
  induction s with
  | nil => simp [readlines]
  | cons c s ih =>
    intro a ha
    rw [readlines] at ha
    have up : ∀ {l : Str}, (∀ x ∈ l, x ∈ s) → ∀ x ∈ l, x ∈ c :: s := fun h x hx => List.mem_cons_of_mem _ (h x hx)
    by_cases h : c = '\n'
    · rw [if_pos h] at ha
      rcases List.mem_cons.1 ha with rfl | ha
      · exact ⟨[], by simp, by simp, Or.inr (by rw [h]; rfl)⟩
      · obtain ⟨l, h1, h2, h3⟩ := ih a ha
        exact ⟨l, h1, up h2, h3⟩
    · rw [if_neg h] at ha
      cases hr : readlines s with
      | nil =>
        rw [hr] at ha
        simp only [List.mem_singleton] at ha
        exact ⟨[c], by simpa using fun e => h e.symm, by simp, Or.inl ha⟩
      | cons b bs =>
        rw [hr] at ha ih
        rcases List.mem_cons.1 ha with rfl | ha
        · obtain ⟨l, h1, h2, h3⟩ := ih b List.mem_cons_self
          refine ⟨c :: l, ?_, ?_, ?_⟩
          · simp only [List.mem_cons, not_or]; exact ⟨fun e => h e.symm, h1⟩
          · intro x hx
            rcases List.mem_cons.1 hx with rfl | hx
            · exact List.mem_cons_self
            · exact up h2 x hx
          · rcases h3 with rfl | rfl
            · exact Or.inl rfl
            · exact Or.inr rfl
        · obtain ⟨l, h1, h2, h3⟩ := ih a (List.mem_cons_of_mem _ ha)
          exact ⟨l, h1, up h2, h3⟩

theorem readlines_append {l : Str} (h : '\n' ∉ l) (s : Str) : readlines (l ++ '\n' :: s) = (l ++ ['\n']) :: readlines s := by
  induction l with
  | nil => simp [readlines]
  | cons c l ih =>
    rw [List.mem_cons, not_or] at h
    rw [List.cons_append, readlines, if_neg (fun e => h.1 e.symm), ih h.2]
    rfl

theorem readlines_one {l : Str} (h : '\n' ∉ l) (hl : l ≠ []) : readlines l = [l] := by
  induction l with
  | nil => exact absurd rfl hl
  | cons c l ih =>
    rw [List.mem_cons, not_or] at h
    rw [readlines, if_neg (fun e => h.1 e.symm)]
    cases l with
    | nil => rfl
    | cons d l => rw [ih h.2 (by simp)]

/-! ### The copy -/

/-- A newline at the end of a line does not change its content. -/
theorem content_newline {l b : Str} (h : Content l b) : Content (l ++ ['\n']) b := by
  obtain ⟨p, q, c, h1, h2, h3, h4⟩ := h.parts
  refine ⟨?_, h.noHash, h.first, h.last⟩
  rcases h4 with rfl | ⟨t, rfl⟩
  · refine ⟨p, q ++ ['\n'], [], by rw [h1]; simp, h2, fun x hx => ?_, Or.inl rfl⟩
    rcases List.mem_append.1 hx with hx | hx
    · exact h3 x hx
    · rw [List.mem_singleton.1 hx]; decide
  · exact ⟨p, q, '#' :: (t ++ ['\n']), by rw [h1]; simp, h2, h3, Or.inr ⟨_, rfl⟩⟩

theorem content_sub {l b : Str} (h : Content l b) : ∀ c ∈ b, c ∈ l := fun c hc => by
  obtain ⟨p, q, r, h1, -⟩ := h.parts
  rw [h1]; simp [hc]

/-- Filtered lines of a file have no newlines. -/
theorem filtered_line {t l : Str} (h : l ∈ (filter (readlines (newlines t))).map Prod.fst) :
    Clean l ∧ '\n' ∉ l ∧ '\r' ∉ l := by
  refine ⟨filter_clean _ l h, ?_⟩
  obtain ⟨⟨b, m⟩, hm, rfl⟩ := List.mem_map.1 h
  obtain ⟨i, a, -, ha, hc, -⟩ := ((C44_kept _).1 b m).1 hm
  obtain ⟨l, h1, h2, h3⟩ := readlines_lines _ a (List.mem_of_getElem? ha)
  have hb : Content l b := by
    have := content_strip l
    rcases h3 with rfl | rfl
    · exact hc
    · rwa [(content_newline this).unique hc] at this
  exact ⟨fun hn => h1 (content_sub hb _ hn), fun hr => newlines_no _ t le_rfl (h2 _ (content_sub hb _ hr))⟩

theorem filterFrom_join {ls : List Str} (h : ∀ l ∈ ls, Clean l ∧ '\n' ∉ l) (n : ℕ) :
    (filterFrom n (readlines (joinLines ls))).map Prod.fst = ls := by
  induction ls generalizing n with
  | nil => rfl
  | cons l ls ih =>
    obtain ⟨⟨h1, h2⟩, h3⟩ := h l List.mem_cons_self
    have ih := ih fun x hx => h x (List.mem_cons_of_mem _ hx)
    cases ls with
    | nil =>
      rw [joinLines, readlines_one h3 h2]
      exact filterFrom_self n [l] fun x hx => by rw [List.mem_singleton.1 hx]; exact ⟨h1, h2⟩
    | cons k ls =>
      rw [joinLines, readlines_append h3, filterFrom_cons, (content_strip _).unique (content_newline h1), if_neg h2,
        List.map_append, ih]
      · rfl
      · simp

theorem joinLines_chars {ls : List Str} {c : Char} (hc : c ≠ '\n') (h : ∀ l ∈ ls, c ∉ l) : c ∉ joinLines ls := by
  induction ls with
  | nil => simp [joinLines]
  | cons l ls ih =>
    have h1 := h l List.mem_cons_self
    have ih := ih fun x hx => h x (List.mem_cons_of_mem _ hx)
    cases ls with
    | nil => exact h1
    | cons k ls =>
      rw [joinLines]
      · simp only [List.mem_append, List.mem_cons, not_or]; exact ⟨h1, hc, ih⟩
      · simp

/-- The lines of the copy are the filtered lines of the file. -/
theorem copy_lines (t : Str) :
    (filter (readlines (newlines (joinLines ((filter (readlines (newlines t))).map Prod.fst))))).map Prod.fst =
      (filter (readlines (newlines t))).map Prod.fst := by
  rw [newlines_self (joinLines_chars (by decide) fun l hl => (filtered_line hl).2.2)]
  exact filterFrom_join (fun l hl => ⟨(filtered_line hl).1, (filtered_line hl).2.1⟩) 0

section
variable {K : Type} [Field K] [LinearOrder K]

theorem load_mapError (L : Lib K) (ls : List Str) : (load L ls).mapError FileErr.load =
    match verify L ((filter ls).map Prod.fst) with
    | .error e => .error (.load (.py e))
    | .ok (true, _) => .error (.load .rejected)
    | .ok (false, found) => (readAll L ((filter ls).map Prod.fst) found).mapError fun e => FileErr.load (.py e) := by
  rw [load]
  cases verify L ((filter ls).map Prod.fst) with
  | error e => rfl
  | ok r =>
    obtain ⟨b, found⟩ := r
    cases b with
    | true => rfl
    | false =>
      simp only
      cases readAll L ((filter ls).map Prod.fst) found <;> rfl

/-- Loading does not depend on the disk apart from the text of the file. -/
theorem loadFile_read (L : Lib K) (name : Str) (d : Disk) : loadFile L name false d =
    ((d.read name).bind fun ls => (load L ls).mapError .load, d) := by
  unfold loadFile filterFile
  cases hr : d.read name with
  | error e => rfl
  | ok ls =>
    simp only [Option.isNone_some, Option.isSome_none, Bool.false_and, Bool.and_false, Option.getD_some, hr, Bool.false_eq_true,
      if_false, Except.bind, load_mapError]
    rfl

/-- **C104, copies.** If the copy can be written (its directory exists and its name is not that of a directory) then loading
with `save_filtered` returns or raises what it returns or raises without, the disk has the copy and is otherwise unchanged,
in particular the model file itself, and loading the copy gives the same Hamiltonian or the same exception. -/
theorem C104_copy_partial (L : Lib K) (name : Str) (d : Disk) (hn : (d.files.get? name).isSome)
    (hd : d.dir (Path.split (Str.lit "filtered_" ++ name)).1 = true) (hc : d.dir (Str.lit "filtered_" ++ name) = false) :
    (loadFile L name true d).1 = (loadFile L name false d).1 ∧
    (∀ other, other ≠ Str.lit "filtered_" ++ name → (loadFile L name true d).2.files.get? other = d.files.get? other) ∧
    (loadFile L name true d).2.dir = d.dir ∧
    (loadFile L (Str.lit "filtered_" ++ name) false (loadFile L name true d).2).1 = (loadFile L name false d).1 := by
  obtain ⟨t, ht⟩ := Option.isSome_iff_exists.1 hn
  have hr : d.read name = .ok (readlines (newlines t)) := by rw [Disk.read, ht]
  set ls := (filter (readlines (newlines t))).map Prod.fst with hls
  set d' : Disk := { d with files := d.files.set (Str.lit "filtered_" ++ name) (joinLines ls) } with hd'
  have hw : d.write (copyName (some name)) (joinLines ls) = .ok d' := by
    rw [Disk.write, copyName, Option.getD_some, hd, hc]; rfl
  have e : loadFile L name true d = ((load L (readlines (newlines t))).mapError .load, d') := by
    unfold loadFile filterFile
    simp only [hr, Option.isNone_some, Option.isSome_none, Bool.false_and, Bool.and_false, Option.getD_some, Bool.false_eq_true,
      if_false, ← hls, hw, if_true, load_mapError]
    rfl
  rw [e, loadFile_read, loadFile_read, hr]
  refine ⟨rfl, fun other ho => ?_, rfl, ?_⟩
  · simp only [hd']
    rw [PyDict.get?_set, if_neg (by simpa using fun e => ho e.symm)]
  · have hr' : d'.read (Str.lit "filtered_" ++ name) = .ok (readlines (newlines (joinLines ls))) := by
      rw [Disk.read, hd']
      simp only
      rw [PyDict.get?_set_self]
    rw [hr']
    simp only [Except.bind]
    rw [load, load, hls, copy_lines]

theorem split_plain {p : Str} (h : '/' ∉ p) : (Path.split p).1 = [] := by
  have hw : ∀ c ∈ p.reverse, (c != '/') = true := fun c hc => by
    have : c ≠ '/' := by rintro rfl; exact h (List.mem_reverse.1 hc)
    simpa using this
  have : p.reverse.dropWhile (· != '/') = [] := List.dropWhile_eq_nil_iff.2 hw
  simp [Path.split, this]

/-- **C104, plain names.** For a name without directory the copy can be written in the current directory. -/
theorem C104_plain_name (L : Lib K) (name : Str) (d : Disk) (hn : (d.files.get? name).isSome) (hs : '/' ∉ name)
    (hd : d.dir [] = true) (hc : d.dir (Str.lit "filtered_" ++ name) = false) :
    (loadFile L name true d).1 = (loadFile L name false d).1 ∧
    (loadFile L name true d).2.files.get? name = d.files.get? name ∧
    (loadFile L (Str.lit "filtered_" ++ name) false (loadFile L name true d).2).1 = (loadFile L name false d).1 := by
  have hs' : '/' ∉ Str.lit "filtered_" ++ name := by
    rw [List.mem_append, not_or]; exact ⟨by decide, hs⟩
  have H := C104_copy_partial L name d hn (by rw [split_plain hs']; exact hd) hc
  refine ⟨H.1, H.2.1 _ fun e => ?_, H.2.2.2⟩
  have := congrArg List.length e
  rw [List.length_append] at this
  have h9 : (Str.lit "filtered_").length = 9 := by decide
  omega

/-- **C104, what the copy looks like.** Every line of the copy is the content of a line of the file, none is empty or has a
comment, and the order is that of the file. -/
theorem C104_copy_lines (L : Lib K) (name t : Str) (d : Disk) (hn : d.files.get? name = some t)
    (hd : d.dir (Path.split (Str.lit "filtered_" ++ name)).1 = true) (hc : d.dir (Str.lit "filtered_" ++ name) = false) :
    ∃ ls : List Str, (loadFile L name true d).2.files.get? (Str.lit "filtered_" ++ name) = some (joinLines ls) ∧
      (∀ l ∈ ls, Clean l ∧ '\n' ∉ l) ∧
      ls = (filter (readlines (newlines t))).map Prod.fst := by
  refine ⟨_, ?_, fun l hl => ⟨(filtered_line hl).1, (filtered_line hl).2.1⟩, rfl⟩
  have hr : d.read name = .ok (readlines (newlines t)) := by rw [Disk.read, hn]
  have hw : d.write (copyName (some name)) (joinLines ((filter (readlines (newlines t))).map Prod.fst)) =
      .ok { d with files := d.files.set (Str.lit "filtered_" ++ name) (joinLines ((filter (readlines (newlines t))).map Prod.fst)) } := by
    rw [Disk.write, copyName, Option.getD_some, hd, hc]; rfl
  unfold loadFile filterFile
  simp only [hr, Option.isNone_some, Option.isSome_none, Bool.false_and, Bool.and_false, Option.getD_some, Bool.false_eq_true,
    if_false, hw, if_true]
  exact PyDict.get?_set_self _ _ _

end

/-! ### Names with a directory -/

open TxtExample

namespace FileExample

/-- A model file in the directory "models". -/
def disk : Disk where
  files := [(Str.lit "models/a.txt", joinLines full), (Str.lit "a.txt", joinLines full)]
  dir p := p == [] || p == Str.lit "models"

end FileExample

open FileExample

/-- The conditions of `C104_plain_name` are met and the file is loaded. -/
example : (disk.files.get? (Str.lit "a.txt")).isSome = true ∧ '/' ∉ Str.lit "a.txt" ∧ disk.dir [] = true ∧
    disk.dir (Str.lit "filtered_a.txt") = false := by decide +kernel

/-- **C104 is false** for names with a directory: a file that is loaded without `save_filtered` raises with it, since
"filtered_" is put in front of the directory. -/
theorem C104_path_false : ∃ (name : Str) (d : Disk), d.dir (Path.split name).1 = true ∧
    (∃ r, (loadFile libLower name false d).1 = .ok r) ∧ (loadFile libLower name true d).1 = .error .os := by
  refine ⟨Str.lit "models/a.txt", disk, by decide +kernel, ?_, ?_⟩
  · have h : ((loadFile libLower (Str.lit "models/a.txt") false disk).1.toOption).isSome = true := by decide +kernel
    cases hr : (loadFile libLower (Str.lit "models/a.txt") false disk).1 with
    | error e => rw [hr] at h; cases h
    | ok r => exact ⟨r, rfl⟩
  · have h : (match (loadFile libLower (Str.lit "models/a.txt") true disk).1 with
        | .error e => decide (e = .os)
        | .ok _ => false) = true := by decide +kernel
    cases hr : (loadFile libLower (Str.lit "models/a.txt") true disk).1 with
    | error e => rw [hr] at h; simpa using h
    | ok r => rw [hr] at h; cases h

/-- **C104, lines instead of a file: false.** With `lines` and `save_filtered` a file "filtered_None" is written, over one
that may be there. -/
theorem C104_lines_false : ∃ (ls : List Str) (d : Disk), d.files.get? (Str.lit "filtered_None") = some (Str.lit "precious") ∧
    (filterFile none (some ls) true d).2.files.get? (Str.lit "filtered_None") ≠ some (Str.lit "precious") :=
  ⟨[], ⟨[(Str.lit "filtered_None", Str.lit "precious")], fun p => p == []⟩, by decide +kernel, by decide +kernel⟩

end Magnopy.Txt
