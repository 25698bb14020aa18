import Verif.Lemmas.TxtDumpAtoms
import Verif.Props.Hdf5

/-!
# Lemmas: the notation of a written file
-/

set_option autoImplicit false
set_option linter.unusedSectionVars false

namespace Magnopy
namespace Txt

open H5 (Full)

theorem Says.lower_head {c : Str} {d : Char} {t : Str} {ws : List Str} (h : Says c ((d :: t) :: ws)) : ∃ u, c.lower = d.toLower :: u := by
  obtain ⟨-, rest, e⟩ := h.prefix
  rw [e]
  exact ⟨_, rfl⟩

theorem boolName_plain (b : Bool) : Plain (boolName b) := by
  cases b <;> exact ⟨by decide +kernel, by decide +kernel, by decide +kernel⟩

theorem boolName_bool (b : Bool) : isBool (boolName b).lower = true := by cases b <;> decide +kernel

theorem boolName_true (b : Bool) : isTrue (boolName b) = b := by cases b <;> decide +kernel

section
variable {K : Type} [Field K]

/-- The words of the lines about exchange. -/
def exchangeNote (F : Fmt K) (s : St K) : List (List Str) :=
  if s.exch = [] then []
  else [[Str.lit "Double-counting", boolName (s.dc.getD false)], [Str.lit "Exchange-factor", F.repr (s.ef.getD 0)]]

/-- The words of the line about on-site terms. -/
def siteNote (F : Fmt K) (s : St K) : List (List Str) :=
  if s.onSite = [] then [] else [[Str.lit "On-site-factor", F.repr (s.osf.getD 0)]]

/-- The words of the notation. -/
def noteWords (F : Fmt K) (s : St K) : List (List Str) :=
  [[Str.lit "Notation"], [Str.lit "Spin-normalized", boolName (s.sn.getD false)]] ++ exchangeNote F s ++ siteNote F s

theorem lineOf_pair {s : String} {w : Str} (h1 : '#' ∉ Str.lit s) (h2 : (Str.lit (s ++ " ")).split = [Str.lit s]) (hw : Plain w) :
    LineOf (Str.lit (s ++ " ") ++ w) [Str.lit s, w] := by
  have e : Str.lit (s ++ " ") = Str.lit s ++ [' '] := by
    rw [Str.lit, Str.lit, String.toList_append]
    rfl
  have h3 : (Str.lit s).split = [Str.lit s] := by
    rw [e, Str.split_append_space (by decide)] at h2
    simpa [Str.split] using h2
  rw [e, List.append_assoc]
  exact lineOf_spaced (spaced_append ⟨h1, h3⟩ (spaced_plain hw)) (by simp)

variable [LinearOrder K]

theorem note_lines {F : Fmt K} {L : Lib K} (h : Prints F L) {x : Full K} (hx : H5.Kept x) :
    ∃ N, notationText F x.ham = .ok (if x.ham.exch = [] ∧ x.ham.onSite = [] then [] else N ++ [separator]) ∧
      (¬ (x.ham.exch = [] ∧ x.ham.onSite = []) → List.Forall₂ LineOf N (noteWords F x.ham)) := by
  by_cases h0 : x.ham.exch = [] ∧ x.ham.onSite = []
  · exact ⟨[], by rw [notationText, if_pos h0, if_pos h0], fun h => absurd h0 h⟩
  obtain ⟨b, hb⟩ := Option.isSome_iff_exists.1 (hx.sn (by tauto))
  have l1 : LineOf (Str.lit "Notation") [Str.lit "Notation"] :=
    lineOf_spaced ⟨by decide +kernel, by decide +kernel⟩ (by simp)
  have l2 := lineOf_pair (s := "Spin-normalized") (by decide +kernel) (by decide +kernel) (boolName_plain b)
  have l3 := fun d => lineOf_pair (s := "Double-counting") (by decide +kernel) (by decide +kernel) (boolName_plain d)
  have l4 := fun e => lineOf_pair (s := "Exchange-factor") (by decide +kernel) (by decide +kernel) (h.repr e)
  have l5 := fun e => lineOf_pair (s := "On-site-factor") (by decide +kernel) (by decide +kernel) (h.repr e)
  have he : ∃ E, notationExchange F x.ham = .ok E ∧ List.Forall₂ LineOf E (exchangeNote F x.ham) := by
    by_cases h1 : x.ham.exch = []
    · exact ⟨[], by rw [notationExchange, if_pos h1], by rw [exchangeNote, if_pos h1]; exact .nil⟩
    · obtain ⟨d, hd⟩ := Option.isSome_iff_exists.1 (hx.dc h1)
      obtain ⟨e, hef⟩ := Option.isSome_iff_exists.1 (hx.ef h1)
      refine ⟨_, by rw [notationExchange, if_neg h1, hd, hef], ?_⟩
      rw [exchangeNote, if_neg h1, hd, hef]
      exact .cons (l3 d) (.cons (l4 e) .nil)
  have ho : ∃ E, notationSite F x.ham = .ok E ∧ List.Forall₂ LineOf E (siteNote F x.ham) := by
    by_cases h1 : x.ham.onSite = []
    · exact ⟨[], by rw [notationSite, if_pos h1], by rw [siteNote, if_pos h1]; exact .nil⟩
    · obtain ⟨e, hef⟩ := Option.isSome_iff_exists.1 (hx.osf h1)
      refine ⟨_, by rw [notationSite, if_neg h1, hef], ?_⟩
      rw [siteNote, if_neg h1, hef]
      exact .cons (l5 e) .nil
  obtain ⟨E, h1, h2⟩ := he
  obtain ⟨O, h3, h4⟩ := ho
  refine ⟨[Str.lit "Notation", Str.lit "Spin-normalized " ++ boolName b] ++ E ++ O, ?_, fun _ => ?_⟩
  · rw [notationText, if_neg h0, if_neg h0, hb]
    simp only [h1, h3]
  · rw [noteWords, hb]
    exact List.rel_append (List.rel_append (.cons l1 (.cons l2 .nil)) h2) h4

theorem notationLoop_says {c k v : Str} (h : Says c [k, v]) {cs : List Str} {d : PyDict (Option Char) Str}
    (hd : d.get? k.lower.head? = none) : notationLoop (c :: cs) d = notationLoop cs (d.set k.lower.head? v.lower) := by
  have e : c.lower.split = [k.lower, v.lower] := by rw [Str.split_lower, h.split]; rfl
  rw [notationLoop, e]
  simp only [hd]
  rfl

theorem note_good {F : Fmt K} {L : Lib K} (hw : L.Words) {x : Full K} (hx : Printable F L x)
    (h0 : ¬ (x.ham.exch = [] ∧ x.ham.onSite = [])) {N : List Str} (hN : List.Forall₂ Says N (noteWords F x.ham)) :
    badNotation L N (decide (x.ham.exch ≠ [])) (decide (x.ham.onSite ≠ [])) = false := by
  rw [noteWords] at hN
  cases hN with
  | cons t0 hN =>
  cases hN with
  | cons t1 hN =>
  rename_i c0 c1 N
  replace hN : List.Forall₂ Says N (exchangeNote F x.ham ++ siteNote F x.ham) := hN
  rw [exchangeNote, siteNote] at hN
  have k1 : (Str.lit "Spin-normalized").lower.head? = some 's' := by decide +kernel
  have k2 : (Str.lit "Double-counting").lower.head? = some 'd' := by decide +kernel
  have k3 : (Str.lit "Exchange-factor").lower.head? = some 'e' := by decide +kernel
  have k4 : (Str.lit "On-site-factor").lower.head? = some 'o' := by decide +kernel
  have hef : x.ham.exch ≠ [] → isFloat L (F.repr (x.ham.ef.getD 0)).lower = true := by
    intro h1
    obtain ⟨e, he⟩ := Option.isSome_iff_exists.1 (hx.kept.ef h1)
    rw [isFloat, hw, he, Option.getD_some, hx.ef e he]
    rfl
  have hof : x.ham.onSite ≠ [] → isFloat L (F.repr (x.ham.osf.getD 0)).lower = true := by
    intro h1
    obtain ⟨e, he⟩ := Option.isSome_iff_exists.1 (hx.kept.osf h1)
    rw [isFloat, hw, he, Option.getD_some, hx.osf e he]
    rfl
  have b1 := boolName_bool (x.ham.sn.getD false)
  have b2 := boolName_bool (x.ham.dc.getD false)
  by_cases h1 : x.ham.exch = []
  · have h2 : x.ham.onSite ≠ [] := fun h2 => h0 ⟨h1, h2⟩
    rw [if_pos h1, if_neg h2] at hN
    cases hN with
    | cons t2 hN =>
    cases hN
    rw [decide_eq_false (p := x.ham.exch ≠ []) (not_not.2 h1), decide_eq_true (p := x.ham.onSite ≠ []) h2]
    simp only [badNotation, says_header1 t0, List.headD_cons, List.length_cons, List.length_nil, List.tail_cons]
    rw [notationLoop_says t1 rfl, k1, notationLoop_says t2 (by rw [k4]; rfl), k4]
    simp [notationLoop, PyDict.set, PyDict.get?, b1, hof h2]
  · rw [if_neg h1] at hN
    by_cases h2 : x.ham.onSite = []
    · rw [if_pos h2] at hN
      cases hN with
      | cons t2 hN =>
      cases hN with
      | cons t3 hN =>
      cases hN
      rw [decide_eq_true (p := x.ham.exch ≠ []) h1, decide_eq_false (p := x.ham.onSite ≠ []) (not_not.2 h2)]
      simp only [badNotation, says_header1 t0, List.headD_cons, List.length_cons, List.length_nil, List.tail_cons]
      rw [notationLoop_says t1 rfl, k1, notationLoop_says t2 (by rw [k2]; rfl), k2,
          notationLoop_says t3 (by rw [k3]; rfl), k3]
      simp [notationLoop, PyDict.set, PyDict.get?, b1, b2, hef h1]
    · rw [if_neg h2] at hN
      cases hN with
      | cons t2 hN =>
      cases hN with
      | cons t3 hN =>
      cases hN with
      | cons t4 hN =>
      cases hN
      rw [decide_eq_true (p := x.ham.exch ≠ []) h1, decide_eq_true (p := x.ham.onSite ≠ []) h2]
      simp only [badNotation, says_header1 t0, List.headD_cons, List.length_cons, List.length_nil, List.tail_cons]
      rw [notationLoop_says t1 rfl, k1, notationLoop_says t2 (by rw [k2]; rfl), k2,
          notationLoop_says t3 (by rw [k3]; rfl), k3, notationLoop_says t4 (by rw [k4]; rfl), k4]
      simp [notationLoop, PyDict.set, PyDict.get?, b1, b2, hef h1, hof h2]

theorem startsWith_cons (a b : Char) (t : Str) : Str.startsWith (a :: t) [b] = decide (b = a) := by
  simp only [Str.startsWith, List.isPrefixOf, Bool.and_true]
  rfl

theorem line_sn {L : Lib K} {c : Str} {b : Bool} (h : Says c [Str.lit "Spin-normalized", boolName b]) {s : St K} (hs : s.sn = none) :
    notationLine L c s = .ok { s with sn := some b } := by
  obtain ⟨u, hu⟩ := h.lower_head (d := 'S') (t := Str.lit "pin-normalized")
  rw [notationLine, hu, startsWith_cons, if_pos (by decide), h.split]
  simp only [word, List.getElem?_cons_succ, List.getElem?_cons_zero, Except.bind, boolName_true, H5.setSN_fresh b hs]
  rfl

theorem line_dc {L : Lib K} {c : Str} {b : Bool} (h : Says c [Str.lit "Double-counting", boolName b]) {s : St K} (hs : s.dc = none)
    (he : s.exch = []) : notationLine L c s = .ok { s with dc := some b } := by
  obtain ⟨u, hu⟩ := h.lower_head (d := 'D') (t := Str.lit "ouble-counting")
  rw [notationLine, hu, startsWith_cons, if_neg (by decide), startsWith_cons, if_pos (by decide), h.split]
  simp only [word, List.getElem?_cons_succ, List.getElem?_cons_zero, Except.bind, boolName_true, H5.setDC_fresh b hs he]
  rfl

theorem line_ef {L : Lib K} {c w : Str} {e : K} (h : Says c [Str.lit "Exchange-factor", w]) (hw : L.float w = some e) {s : St K}
    (hs : s.ef = none) : notationLine L c s = .ok { s with ef := some e } := by
  obtain ⟨u, hu⟩ := h.lower_head (d := 'E') (t := Str.lit "xchange-factor")
  rw [notationLine, hu, startsWith_cons, if_neg (by decide), startsWith_cons, if_neg (by decide), startsWith_cons, if_pos (by decide),
    h.split]
  simp only [word, List.getElem?_cons_succ, List.getElem?_cons_zero, Except.bind, parse, hw, H5.setEF_fresh e hs]
  rfl

theorem line_osf {L : Lib K} {c w : Str} {e : K} (h : Says c [Str.lit "On-site-factor", w]) (hw : L.float w = some e) {s : St K}
    (hs : s.osf = none) : notationLine L c s = .ok { s with osf := some e } := by
  obtain ⟨u, hu⟩ := h.lower_head (d := 'O') (t := Str.lit "n-site-factor")
  rw [notationLine, hu, startsWith_cons, if_neg (by decide), startsWith_cons, if_neg (by decide), startsWith_cons, if_neg (by decide),
    startsWith_cons, if_pos (by decide), h.split]
  simp only [word, List.getElem?_cons_succ, List.getElem?_cons_zero, Except.bind, parse, hw, H5.setOF_fresh e hs]
  rfl

/-- The state after the notation is read. -/
def noted (x : Full K) (s : St K) : St K :=
  { s with
    sn := if x.ham.exch = [] ∧ x.ham.onSite = [] then none else x.ham.sn
    dc := if x.ham.exch = [] then none else x.ham.dc
    ef := if x.ham.exch = [] then none else x.ham.ef
    osf := if x.ham.onSite = [] then none else x.ham.osf }

theorem note_read {F : Fmt K} {L : Lib K} {x : Full K} (hx : Printable F L x)
    (h0 : ¬ (x.ham.exch = [] ∧ x.ham.onSite = [])) {N : List Str} (hN : List.Forall₂ Says N (noteWords F x.ham)) {s : St K}
    (s1 : s.dc = none) (s2 : s.sn = none) (s3 : s.ef = none) (s4 : s.osf = none) (s5 : s.exch = []) :
    readNotation L N s = .ok (noted x s) := by
  rw [noteWords] at hN
  cases hN with
  | cons t0 hN =>
  cases hN with
  | cons t1 hN =>
  rename_i c0 c1 N
  replace hN : List.Forall₂ Says N (exchangeNote F x.ham ++ siteNote F x.ham) := hN
  rw [exchangeNote, siteNote] at hN
  obtain ⟨b, hb⟩ := Option.isSome_iff_exists.1 (hx.kept.sn (by tauto))
  rw [hb] at t1
  rw [readNotation, List.tail_cons, readNotationLines, line_sn t1 s2, Except.bind, noted, if_neg h0, hb]
  by_cases h1 : x.ham.exch = []
  · have h2 : x.ham.onSite ≠ [] := fun h2 => h0 ⟨h1, h2⟩
    rw [if_pos h1, if_neg h2] at hN
    cases hN with
    | cons t2 hN =>
    cases hN
    obtain ⟨e, he⟩ := Option.isSome_iff_exists.1 (hx.kept.osf h2)
    rw [he] at t2
    rw [readNotationLines, line_osf t2 (hx.osf e he) (by exact s4), Except.bind, readNotationLines, if_pos h1, if_pos h1, if_neg h2, he]
    exact congrArg Except.ok (by rw [← s1, ← s3]; rfl)
  · rw [if_neg h1] at hN
    obtain ⟨d, hd⟩ := Option.isSome_iff_exists.1 (hx.kept.dc h1)
    obtain ⟨e, he⟩ := Option.isSome_iff_exists.1 (hx.kept.ef h1)
    by_cases h2 : x.ham.onSite = []
    · rw [if_pos h2] at hN
      cases hN with
      | cons t2 hN =>
      cases hN with
      | cons t3 hN =>
      cases hN
      rw [hd] at t2
      rw [he] at t3
      rw [readNotationLines, line_dc t2 (by exact s1) (by exact s5), Except.bind, readNotationLines, line_ef t3 (hx.ef e he) (by exact s3),
        Except.bind, readNotationLines, if_neg h1, if_neg h1, if_pos h2, hd, he]
      exact congrArg Except.ok (by rw [← s4]; rfl)
    · rw [if_neg h2] at hN
      cases hN with
      | cons t2 hN =>
      cases hN with
      | cons t3 hN =>
      cases hN with
      | cons t4 hN =>
      cases hN
      obtain ⟨o, ho⟩ := Option.isSome_iff_exists.1 (hx.kept.osf h2)
      rw [hd] at t2
      rw [he] at t3
      rw [ho] at t4
      rw [readNotationLines, line_dc t2 (by exact s1) (by exact s5), Except.bind, readNotationLines, line_ef t3 (hx.ef e he) (by exact s3),
        Except.bind, readNotationLines, line_osf t4 (hx.osf o ho) (by exact s4), Except.bind, readNotationLines, if_neg h1, if_neg h1,
        if_neg h2, hd, he, ho]
      rfl

end

end Txt
end Magnopy
