import Verif.Spec.TxtLoad
import Verif.Props.TxtUnits
import Verif.Props.TxtSections

/-!
# Lemmas: what verification guarantees for each section
-/

set_option autoImplicit false
set_option linter.unusedSectionVars false

namespace Magnopy

open Txt

namespace Str

theorem toLower_toLower (c : Char) : c.toLower.toLower = c.toLower := by
  by_cases h : c.val ≥ 'A'.val ∧ c.val ≤ 'Z'.val
  · have h1 : 65 ≤ c.toNat := by have := h.1; exact this
    have h2 : c.toNat ≤ 90 := by have := h.2; exact this
    have key : ∀ n : Fin 26, (Char.ofNat (65 + n)).toLower.toLower = (Char.ofNat (65 + n)).toLower := by decide +kernel
    have := key ⟨c.toNat - 65, by omega⟩
    simp only [show 65 + (c.toNat - 65) = c.toNat by omega, Char.ofNat_toNat] at this
    exact this
  · have : c.toLower = c := by rw [Char.toLower, dif_neg h]
    rw [this, this]

theorem lower_lower (s : Str) : lower (lower s) = lower s := by
  simp [lower, toLower_toLower]

theorem mem_iff {w : Str} {l : List Str} : mem w l = true ↔ w ∈ l := by
  simp [mem]

theorem startsWith_char {s : Str} {c : Char} : startsWith s [c] = true ↔ ∃ t, s = c :: t := by
  rw [startsWith, List.isPrefixOf_iff_prefix]
  exact ⟨fun ⟨t, h⟩ => ⟨t, h.symm⟩, fun ⟨t, h⟩ => ⟨t, h.symm⟩⟩

/-- A line with one word. -/
theorem split_single {l w : Str} (hl : Clean l) (h : split l = [w]) : l = w := by
  have hf := firstWord_first hl
  have e : first l = w := by rw [first, h]; rfl
  rw [e] at hf
  rcases hf.rest with r | ⟨c, t, r, hc⟩
  · exact r
  · exfalso
    rw [r, split_append hf.nonempty hf.noSpace (Or.inr ⟨c, t, rfl, hc⟩)] at h
    have hn : split (c :: t) = [] := (List.cons.inj h).2
    have all : ∀ s : Str, split s = [] → ∀ c ∈ s, isSpace c = true := by
      intro s
      induction s with
      | nil => simp
      | cons d s ih =>
        intro hs
        by_cases hd : isSpace d = true
        · rw [split_space hd] at hs
          intro x hx
          rcases List.mem_cons.1 hx with rfl | hx
          · exact hd
          · exact ih hs x hx
        · exfalso
          rw [split.eq_def] at hs
          simp only [hd, if_false, Bool.false_eq_true] at hs
          cases s with
          | nil => simp at hs
          | cons x s =>
            simp only at hs
            split at hs
            · simp at hs
            · split at hs <;> simp at hs
    have hlast := hl.1.last ((c :: t).getLast (by simp)) (w ++ (c :: t).dropLast) (by
      conv_lhs => rw [r]
      rw [List.append_assoc, List.dropLast_append_getLast])
    rw [all _ hn _ (List.getLast_mem _)] at hlast
    exact Bool.noConfusion hlast

theorem split_ne_nil {l : Str} (hl : Clean l) : ∃ w ws, split l = w :: ws ∧ w = first l := by
  have hf := firstWord_first hl
  have : ∃ rest, l = first l ++ rest ∧ (rest = [] ∨ ∃ c t, rest = c :: t ∧ isSpace c = true) := by
    rcases hf.rest with r | ⟨c, t, r, hc⟩
    · exact ⟨[], by simpa using r, Or.inl rfl⟩
    · exact ⟨c :: t, r, Or.inr ⟨c, t, rfl, hc⟩⟩
  obtain ⟨rest, h1, h2⟩ := this
  refine ⟨first l, split rest, ?_, rfl⟩
  conv_lhs => rw [h1]
  exact split_append hf.nonempty hf.noSpace h2

/-- The first letter of a line is that of its first word. -/
theorem first_letter {l : Str} (hl : Clean l) (c : Char) :
    startsWith (lower l) [c] = startsWith ((lower l).split.headD []) [c] := by
  have hf := firstWord_first hl
  obtain ⟨w, ws, h1, h2⟩ := split_ne_nil hl
  rw [split_lower, h1, List.map_cons, List.headD_cons, h2]
  obtain ⟨d, t, hd⟩ := List.exists_cons_of_ne_nil hf.nonempty
  have : ∃ t', l = d :: t' := by
    rcases hf.rest with r | ⟨c, t', r, hc⟩
    · exact ⟨t, by rw [r]; exact hd⟩
    · exact ⟨t ++ c :: t', by rw [r]; exact congrArg (· ++ c :: t') hd⟩
  obtain ⟨t', ht'⟩ := this
  rw [hd, ht']
  simp [lower, startsWith, List.isPrefixOf]

end Str

section
variable {K : Type} [Field K]

theorem floats_ok {L : Lib K} {ws : List Str} (h : ∀ w ∈ ws, (L.float w).isSome) :
    ∃ xs, floats L ws = .ok xs ∧ xs.length = ws.length ∧ ∀ i : ℕ, xs[i]? = (ws[i]?).bind L.float := by
  induction ws with
  | nil => exact ⟨[], rfl, rfl, by simp⟩
  | cons w ws ih =>
    obtain ⟨xs, h1, h2, h3⟩ := ih fun x hx => h x (List.mem_cons_of_mem _ hx)
    obtain ⟨x, hx⟩ := Option.isSome_iff_exists.1 (h w List.mem_cons_self)
    refine ⟨x :: xs, by rw [floats, parse, hx, h1], by simp [h2], fun i => ?_⟩
    cases i with
    | zero => simp [hx]
    | succ i => simpa using h3 i

/-- A line of numbers which was accepted. -/
theorem numbers_ok {L : Lib K} (hw : L.Words) {l : Str} {a : List ℕ} (h : badNumbers L l.lower.split a = false) :
    l.split.length ∈ a ∧ ∀ w ∈ l.split, (L.float w).isSome := by
  rw [badNumbers, Str.split_lower, Bool.or_eq_false_iff] at h
  refine ⟨by simpa using h.1, fun w hmem => ?_⟩
  have := List.any_eq_false.1 h.2 (Str.lower w) (List.mem_map_of_mem hmem)
  rw [Option.isSome_iff_ne_none]
  simpa [isFloat, hw w] using this

theorem readRow_ok {L : Lib K} {ws : List Str} (hl : ws.length = 3) (h : ∀ w ∈ ws, (L.float w).isSome) :
    ∃ r, readRow L ws = .ok r := by
  obtain ⟨xs, h1, h2, -⟩ := floats_ok h
  rw [hl] at h2
  match xs, h2 with
  | [x, y, z], _ => exact ⟨![x, y, z], by rw [readRow, h1]; rfl⟩

theorem header_ok {line : Str} {units : List Str} (h : badHeader line units = false) :
    (∃ w, line.split = [w]) ∨ ∃ w u e, line.split = [w, u] ∧ e ∈ units ∧ Str.startsWith u.lower e = true := by
  rw [badHeader, Str.split_lower] at h
  match hs : line.split with
  | [] => simp [hs] at h
  | [w] => exact Or.inl ⟨w, rfl⟩
  | [w, u] =>
    right
    simp only [hs, List.map_cons, List.map_nil, Bool.or_eq_false_iff, Bool.not_eq_false', List.any_eq_true, Str.lower_lower] at h
    obtain ⟨-, e, h1, h2⟩ := h
    exact ⟨w, u, e, rfl, h1, h2⟩
  | _ :: _ :: _ :: _ => simp [hs] at h

theorem lengthFactor_ok {u : Str} (h : Str.startsWith u ['a'] = true ∨ Str.startsWith u ['b'] = true) :
    ∃ c : K, lengthFactor u = .ok c := by
  rw [lengthFactor]
  rcases h with h | h
  · split_ifs <;> exact ⟨_, rfl⟩
  · exact ⟨_, if_pos h⟩

theorem take_three {ws : List Str} (h : ws.length = 3) : ws.take 3 = ws := by
  rw [← h]; exact List.take_length

theorem cell_ok [LinearOrder K] {L : Lib K} (hw : L.Words) {lines : List Str} (h : badCell L lines = false) :
    ∃ r, readCell L lines = .ok r := by
  rw [badCell] at h
  have hlen : lines.length = 4 ∨ lines.length = 5 := by
    by_contra hc
    have : (!([4, 5].contains lines.length)) = true := by
      simp only [Bool.not_eq_true', List.contains_eq_mem, List.mem_cons, List.not_mem_nil, or_false, decide_eq_false_iff_not]
      exact hc
    rw [if_pos this] at h
    simp at h
  have hin : ¬ ((!([4, 5].contains lines.length)) = true) := by
    rcases hlen with e | e <;> rw [e] <;> decide
  rw [if_neg hin, Bool.or_eq_false_iff] at h
  obtain ⟨hh, hb⟩ := h
  have hunits : ∃ u c, cellUnits (lines.headD []) = .ok u ∧ lengthFactor (K := K) u.lower = .ok c := by
    rcases header_ok hh with ⟨w, e⟩ | ⟨w, u, x, e, hx, hs⟩
    · obtain ⟨c, hc⟩ := lengthFactor_ok (K := K) (u := (Str.lit "Angstrom").lower) (Or.inl (by decide))
      exact ⟨_, c, by rw [cellUnits, e], hc⟩
    · obtain ⟨c, hc⟩ := lengthFactor_ok (K := K) (u := u.lower) (by
        rcases List.mem_cons.1 hx with rfl | hx
        · exact Or.inl hs
        · rw [List.mem_singleton] at hx
          subst hx
          exact Or.inr hs)
      exact ⟨u, c, by rw [cellUnits, e], hc⟩
  obtain ⟨u, c, hu, hc⟩ := hunits
  have rows : ∀ a b d : Str, badBlock L [a, b, d] [[3], [3], [3]] = false →
      ∃ x y z, readRow L (a.split.take 3) = .ok x ∧ readRow L (b.split.take 3) = .ok y ∧ readRow L (d.split.take 3) = .ok z := by
    intro a b d h
    simp only [badBlock, badRows, Bool.or_eq_false_iff] at h
    obtain ⟨-, h1, h2, h3, -⟩ := h
    obtain ⟨l1, f1⟩ := numbers_ok hw h1
    obtain ⟨l2, f2⟩ := numbers_ok hw h2
    obtain ⟨l3, f3⟩ := numbers_ok hw h3
    rw [List.mem_singleton] at l1 l2 l3
    rw [take_three l1, take_three l2, take_three l3]
    obtain ⟨x, hx⟩ := readRow_ok l1 f1
    obtain ⟨y, hy⟩ := readRow_ok l2 f2
    obtain ⟨z, hz⟩ := readRow_ok l3 f3
    exact ⟨x, y, z, hx, hy, hz⟩
  rcases hlen with e | e
  · match lines, e with
    | [l0, l1, l2, l3], _ =>
      obtain ⟨x, y, z, h1, h2, h3⟩ := rows l1 l2 l3 (by simpa using hb)
      simp only [readCell, hu, hc, bind, Except.bind, List.length_cons, List.length_nil, List.getD_cons_succ, List.getD_cons_zero]
      simp only [Nat.reduceAdd, if_true, List.getD_cons_succ, List.getD_cons_zero, h1, h2, h3, Nat.reduceEqDiff, if_false]
      exact ⟨_, rfl⟩
  · match lines, e with
    | [l0, l1, l2, l3, l4], _ =>
      simp only [List.length_cons, List.length_nil, Nat.reduceAdd, if_true, Bool.or_eq_false_iff, List.getD_cons_succ,
        List.getD_cons_zero, List.drop_succ_cons, List.drop_zero] at hb
      obtain ⟨⟨hb1, -⟩, hb3⟩ := hb
      obtain ⟨x, y, z, h1, h2, h3⟩ := rows l2 l3 l4 hb3
      simp only [badBlock, badRows, Bool.or_eq_false_iff] at hb1
      obtain ⟨n1, f1⟩ := numbers_ok hw hb1.2.1
      have hscale : ∀ cell : M3 K, ∃ v, readScale L cell l1.split = .ok v := by
        intro cell
        rcases List.mem_cons.1 n1 with n | n
        · match hs : l1.split, n with
          | [w], _ =>
            obtain ⟨v, hv⟩ := Option.isSome_iff_exists.1 (f1 w (by rw [hs]; simp))
            rw [readScale]
            simp only [parse, hv]
            exact ⟨_, rfl⟩
        · rw [List.mem_singleton] at n
          obtain ⟨r, hr⟩ := readRow_ok n f1
          match hs : l1.split, n with
          | [a, b, d], _ =>
            rw [hs] at hr
            exact ⟨r, hr⟩
      obtain ⟨v, hv⟩ := hscale (Matrix.of fun i j => ![x, y, z] i j * c)
      simp only [readCell, hu, hc, bind, Except.bind, List.length_cons, List.length_nil, List.getD_cons_succ, List.getD_cons_zero]
      simp only [Nat.reduceAdd, if_true, List.getD_cons_succ, List.getD_cons_zero, h1, h2, h3, Nat.reduceEqDiff, if_false, hv]
      exact ⟨_, rfl⟩

end
end Magnopy
