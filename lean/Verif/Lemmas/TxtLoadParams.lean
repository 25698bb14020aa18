import Verif.Lemmas.TxtLoadAtoms
import Verif.Props.TxtBond
import Mathlib.LinearAlgebra.Matrix.Nondegenerate

/-!
# Lemmas: the notation, parameters, cone axis and spiral vector of an accepted file
-/

set_option autoImplicit false
set_option linter.unusedSectionVars false

namespace Magnopy

open Txt

section
variable {K : Type} [Field K] [CharZero K]

/-! ### Notation -/

/-- A Hamiltonian without parameters. -/
def St.NoParams (s : St K) : Prop := s.exch = [] ∧ s.onSite = []

theorem setSN_empty {s : St K} (h : s.NoParams) (b : Bool) :
    ∃ t, (s.setSN b).toExcept = .ok t ∧ t.NoParams ∧ t.atoms = s.atoms := by
  obtain ⟨h1, h2⟩ := h
  refine ⟨{ s with sn := some b }, ?_, ⟨h1, h2⟩, rfl⟩
  unfold St.setSN
  split_ifs <;> simp [St.scaleExch, St.scaleSite, h1, h2, PyDict.keys, forEach, Res.toExcept, Res.ok, Res.andThen]

theorem setDC_empty {s : St K} (h : s.NoParams) (b : Bool) :
    ∃ t, (s.setDC b).toExcept = .ok t ∧ t.NoParams ∧ t.atoms = s.atoms := by
  obtain ⟨h1, h2⟩ := h
  refine ⟨{ s with dc := some b }, ?_, ⟨h1, h2⟩, rfl⟩
  unfold St.setDC
  cases b <;> by_cases a : s.dc = some true <;> by_cases c : s.dc = some false <;>
    simp [a, c, St.scaleExch, h1, PyDict.keys, forEach, Res.toExcept, Res.ok, Res.andThen, St.ensureDC, St.ensureNoDC,
      St.collectMirrors, St.collectRemovals]

theorem setEF_empty [DecidableEq K] {s : St K} (h : s.NoParams) (x : K) :
    ∃ t, (s.setEF x).toExcept = .ok t ∧ t.NoParams ∧ t.atoms = s.atoms := by
  obtain ⟨h1, h2⟩ := h
  refine ⟨{ s with ef := some x }, ?_, ⟨h1, h2⟩, rfl⟩
  unfold St.setEF
  cases s.ef with
  | none => simp [Res.toExcept, Res.ok, Res.andThen]
  | some y =>
    simp only
    split_ifs <;> simp [St.scaleExch, h1, PyDict.keys, forEach, Res.toExcept, Res.ok, Res.andThen]

theorem setOF_empty [DecidableEq K] {s : St K} (h : s.NoParams) (x : K) :
    ∃ t, (s.setOF x).toExcept = .ok t ∧ t.NoParams ∧ t.atoms = s.atoms := by
  obtain ⟨h1, h2⟩ := h
  refine ⟨{ s with osf := some x }, ?_, ⟨h1, h2⟩, rfl⟩
  unfold St.setOF
  cases s.osf with
  | none => simp [Res.toExcept, Res.ok, Res.andThen]
  | some y =>
    simp only
    split_ifs <;> simp [St.scaleSite, h2, PyDict.keys, forEach, Res.toExcept, Res.ok, Res.andThen]

theorem notationLoop_facts {ls : List Str} {d d' : PyDict (Option Char) Str} (h : notationLoop ls d = (false, d')) :
    (∀ l ∈ ls, ∃ k v, l.lower.split = [k, v] ∧ d'.get? k.head? = some v) ∧
    ∀ c x, d.get? c = some x → d'.get? c = some x := by
  induction ls generalizing d with
  | nil =>
    simp only [notationLoop, Prod.mk.injEq] at h
    rw [← h.2]
    exact ⟨by simp, fun _ _ h => h⟩
  | cons l ls ih =>
    rw [notationLoop.eq_def] at h
    simp only at h
    split at h
    · next k v hs =>
      by_cases hg : (d.get? k.head?).isSome = true
      · simp [hg] at h
      · simp only [hg, if_false, Bool.false_eq_true] at h
        obtain ⟨h1, h2⟩ := ih h
        have hv : d'.get? k.head? = some v := h2 _ _ (PyDict.get?_set_self d k.head? v)
        refine ⟨fun x hx => ?_, fun c x hc => ?_⟩
        · rcases List.mem_cons.1 hx with rfl | hx
          · exact ⟨k, v, hs, hv⟩
          · exact h1 x hx
        · refine h2 c x ?_
          rw [PyDict.get?_set]
          rw [if_neg ?_]
          · exact hc
          · intro e
            rw [e, hc] at hg
            exact hg rfl
    · simp at h

theorem notation_ok [DecidableEq K] {L : Lib K} (hw : L.Words) {lines : List Str} (hc : ∀ l ∈ lines, Clean l) {e o : Bool}
    (h : badNotation L lines e o = false) {s : St K} (hs : s.NoParams) :
    ∃ t, readNotation L lines s = .ok t ∧ t.NoParams ∧ t.atoms = s.atoms := by
  simp only [badNotation, Bool.or_eq_false_iff] at h
  have h1 := h.1.1.1.1.2
  have h4 := h.1.2
  have h5 := h.2
  set r := notationLoop lines.tail [] with hr
  obtain ⟨f1, -⟩ := notationLoop_facts (d' := r.2) (show notationLoop lines.tail [] = (false, r.2) by rw [← hr, ← h1])
  have hfl : ∀ c, (c = 'e' ∨ c = 'o') → ∀ v, r.2.get? (some c) = some v → (L.float v).isSome := by
    intro c hcc v hv
    rcases hcc with rfl | rfl
    · rw [hv] at h4
      simpa [isFloat] using h4
    · rw [hv] at h5
      simpa [isFloat] using h5
  have hct : ∀ l ∈ lines.tail, Clean l := fun l hl => hc l (List.mem_of_mem_tail hl)
  rw [readNotation]
  clear_value r
  generalize lines.tail = ls at f1 hct
  clear hr h
  induction ls generalizing s with
  | nil => exact ⟨s, rfl, hs, rfl⟩
  | cons l ls ih =>
    obtain ⟨k, v, h6, h7⟩ := f1 l List.mem_cons_self
    have step : ∃ t, notationLine L l s = .ok t ∧ t.NoParams ∧ t.atoms = s.atoms := by
      have hl := hct l List.mem_cons_self
      obtain ⟨w, ws, e1, e2⟩ := Str.split_ne_nil hl
      have e3 := h6
      rw [Str.split_lower, e1, List.map_cons] at e3
      obtain ⟨e4, e5⟩ := List.cons.inj e3
      match ws, e5 with
      | [x], e5 =>
        simp only [List.map_cons, List.map_nil, List.cons.injEq, and_true] at e5
        have hword : word l.split 1 = .ok x := by rw [e1]; rfl
        have letter : ∀ c : Char, Str.startsWith l.lower [c] = true → k.head? = some c := by
          intro c hcc
          rw [Str.first_letter hl, h6, List.headD_cons] at hcc
          obtain ⟨t, ht⟩ := Str.startsWith_char.1 hcc
          rw [ht]; rfl
        rw [notationLine]
        by_cases a1 : Str.startsWith l.lower ['s'] = true
        · rw [if_pos a1, hword]
          exact setSN_empty hs _
        · rw [if_neg a1]
          by_cases a2 : Str.startsWith l.lower ['d'] = true
          · rw [if_pos a2, hword]
            exact setDC_empty hs _
          · rw [if_neg a2]
            have num : ∀ c, (c = 'e' ∨ c = 'o') → Str.startsWith l.lower [c] = true → ∃ y, parse L x = .ok y := by
              intro c hcc hst
              have := hfl c hcc v (by rw [← letter c hst]; exact h7)
              rw [← e5, hw] at this
              obtain ⟨y, hy⟩ := Option.isSome_iff_exists.1 this
              exact ⟨y, by rw [parse, hy]⟩
            by_cases a3 : Str.startsWith l.lower ['e'] = true
            · obtain ⟨y, hy⟩ := num 'e' (Or.inl rfl) a3
              rw [if_pos a3, hword]
              simp only [Except.bind, hy]
              exact setEF_empty hs y
            · rw [if_neg a3]
              by_cases a4 : Str.startsWith l.lower ['o'] = true
              · obtain ⟨y, hy⟩ := num 'o' (Or.inr rfl) a4
                rw [if_pos a4, hword]
                simp only [Except.bind, hy]
                exact setOF_empty hs y
              · rw [if_neg a4]
                exact ⟨s, rfl, hs, rfl⟩
    obtain ⟨t, h8, h9, h10⟩ := step
    obtain ⟨u, h11, h12, h13⟩ := ih h9 (fun x hx => f1 x (List.mem_cons_of_mem _ hx)) (fun x hx => hct x (List.mem_cons_of_mem _ hx))
    exact ⟨u, by rw [readNotationLines, h8]; exact h11, h12, h13.trans h10⟩

/-! ### Exchange -/

theorem addParts_ok {s : St K} {n1 n2 : Str} {A B : Atom} (h1 : s.getAtom (String.ofList n1) = .ok A)
    (h2 : s.getAtom (String.ofList n2) = .ok B) (R : Cell) {p : Parts K} (hp : ∀ d, p.dmi = some d → d.length = 3) :
    ∃ t, addParts n1 n2 R p s = .ok t ∧ t.atoms = s.atoms := by
  have : ∃ J, (Param.init (p.matrix.map rowsOf) p.iso (p.symm.map rowsOf) (p.dmi.map .vector)).toExcept = .ok J := by
    obtain ⟨i, m, y, d⟩ := p
    have hd : ∀ J : M3 K, ∃ J', Param.ifGiven (d.map Param.ArrayLike.vector) Param.assignDmi J = Res.ok J' := by
      intro J
      cases d with
      | none => exact ⟨J, rfl⟩
      | some xs =>
        have := hp xs rfl
        match xs, this with
        | [a, b, c], _ => exact ⟨_, rfl⟩
    have hm : ∃ J', Param.ifGiven (m.map rowsOf) Param.assignMatrix (0 : M3 K) = Res.ok J' := by
      cases m with
      | none => exact ⟨0, rfl⟩
      | some m => exact ⟨m, by simp only [Option.map_some, Param.ifGiven, Param.assignMatrix, toM3_rowsOf]⟩
    have hy : ∀ J : M3 K, ∃ J', Param.ifGiven (y.map rowsOf) Param.assignAniso J = Res.ok J' := by
      intro J
      cases y with
      | none => exact ⟨J, rfl⟩
      | some m => exact ⟨_, by simp only [Option.map_some, Param.ifGiven, Param.assignAniso, toM3_rowsOf]; rfl⟩
    have hi : ∀ J : M3 K, ∃ J', Param.ifGiven i (fun m v => Res.ok (Param.setIso m v)) J = Res.ok J' := by
      intro J
      cases i with
      | none => exact ⟨J, rfl⟩
      | some m => exact ⟨_, rfl⟩
    obtain ⟨J1, e1⟩ := hm
    obtain ⟨J2, e2⟩ := hi J1
    obtain ⟨J3, e3⟩ := hd J2
    obtain ⟨J4, e4⟩ := hy J3
    refine ⟨J4, ?_⟩
    simp only [Param.init, e1, Res.ok_andThen, e2, e3, e4]
    rfl
  obtain ⟨J, hJ⟩ := this
  refine ⟨_, ?_, (St.putBond_frame (s.alloc J).1 (A, B, R) s.next).1⟩
  rw [addParts, hJ]
  simp only [addExchange_name h1 h2]
  rfl

theorem keyBlock_ok {L : Lib K} (hw : L.Words) {l : Str} (hl : Clean l) {n : ℕ} {kw : Str}
    (h : badKeyBlock L [l] [[n]] kw = false) :
    ∃ w ws, l.split = w :: ws ∧ ws.length = n ∧ ∀ x ∈ ws, (L.float x).isSome := by
  obtain ⟨w, ws, e1, -⟩ := Str.split_ne_nil hl
  rw [badKeyBlock, Bool.or_eq_false_iff] at h
  have h2 := ((Bool.or_eq_false_iff.1 (Bool.or_eq_false_iff.1 h.2).1)).2
  refine ⟨w, ws, e1, ?_⟩
  rw [Str.split_lower, e1, List.map_cons, List.tail_cons, badNumbers, Bool.or_eq_false_iff] at h2
  refine ⟨by simpa using h2.1, fun x hx => ?_⟩
  have := List.any_eq_false.1 h2.2 (Str.lower x) (List.mem_map_of_mem hx)
  rw [Option.isSome_iff_ne_none]
  simpa [isFloat, hw x] using this

theorem bondLoop_tail {L : Lib K} {l : Str} {ls : List Str} (h : (bondLoop L (l :: ls)).1 = false) :
    (bondLoop L ls).1 = false := by
  rw [bondLoop] at h
  split_ifs at h <;> (try rw [Bool.or_eq_false_iff] at h)
  · exact h.2
  · exact h.2
  · exact h.2
  · exact h.2
  · exact h

theorem bondLines_ok {L : Lib K} (hw : L.Words) {n1 n2 : Str} {A B : Atom} {R : Cell} (n : ℕ) : ∀ (ls : List Str), ls.length = n →
    (∀ l ∈ ls, Clean l) → (bondLoop L ls).1 = false → ∀ (p : Parts K) (s : St K), (∀ d, p.dmi = some d → d.length = 3) →
    s.getAtom (String.ofList n1) = .ok A → s.getAtom (String.ofList n2) = .ok B →
    ∃ t, bondLines L n1 n2 R ls p s = .ok t ∧ t.atoms = s.atoms := by
  induction n using Nat.strong_induction_on with
  | _ n IH =>
    intro ls hn hc h p s hp hA hB
    cases ls with
    | nil => exact ⟨s, rfl, rfl⟩
    | cons l ls =>
      have hl := hc l List.mem_cons_self
      have next : ∀ (rest : List Str) (p' : Parts K), rest.length < n → (∀ x ∈ rest, Clean x) → (bondLoop L rest).1 = false →
          (∀ d, p'.dmi = some d → d.length = 3) →
          ∃ t, (addParts n1 n2 R p' s).bind (bondLines L n1 n2 R rest p') = .ok t ∧ t.atoms = s.atoms := by
        intro rest p' h1 h2 h3 h4
        obtain ⟨u, hu, ha⟩ := addParts_ok hA hB R h4
        obtain ⟨t, ht, hb⟩ := IH rest.length h1 rest rfl h2 h3 p' u h4 ((getAtom_atoms ha _).trans hA)
          ((getAtom_atoms ha _).trans hB)
        exact ⟨t, by rw [hu]; exact ht, hb.trans ha⟩
      have htail := bondLoop_tail h
      have hct : ∀ x ∈ ls, Clean x := fun x hx => hc x (List.mem_cons_of_mem _ hx)
      have hlt : ls.length < n := by rw [← hn]; simp
      rw [bondLoop] at h
      rw [bondLines.eq_def]
      simp only [← Str.first_letter hl] at h ⊢
      by_cases a1 : Str.startsWith l.lower ['i'] = true
      · simp only [a1, if_true, Bool.or_eq_false_iff] at h ⊢
        obtain ⟨w, ws, e1, e2, e3⟩ := keyBlock_ok hw hl h.1
        match ws, e2 with
        | [x], _ =>
          obtain ⟨y, hy⟩ := Option.isSome_iff_exists.1 (e3 x (by simp))
          have : (word l.split 1).bind (parse L) = .ok y := by
            rw [e1]
            show parse L x = _
            rw [parse, hy]
          rw [this]
          exact next ls _ hlt hct htail hp
      · simp only [a1, if_false, Bool.false_eq_true] at h ⊢
        by_cases a2 : Str.startsWith l.lower ['d'] = true
        · simp only [a2, if_true, Bool.or_eq_false_iff] at h ⊢
          obtain ⟨w, ws, e1, e2, e3⟩ := keyBlock_ok hw hl h.1
          obtain ⟨xs, f1, f2, -⟩ := floats_ok e3
          rw [e1, List.tail_cons, f1]
          refine next ls _ hlt hct htail fun d hd => ?_
          simp only [Option.some.injEq] at hd
          rw [← hd, f2, e2]
        · simp only [a2, if_false, Bool.false_eq_true] at h ⊢
          by_cases a3 : Str.startsWith l.lower ['s'] = true
          · simp only [a3, if_true, Bool.or_eq_false_iff] at h ⊢
            obtain ⟨w, ws, e1, e2, e3⟩ := keyBlock_ok hw hl h.1
            obtain ⟨xs, f1, f2, -⟩ := floats_ok e3
            rw [e2] at f2
            rw [e1, List.tail_cons, f1]
            match xs, f2 with
            | [x1, x2, x3, x4, x5], _ => exact next ls _ hlt hct htail hp
          · simp only [a3, if_false, Bool.false_eq_true] at h ⊢
            by_cases a4 : Str.startsWith l.lower ['m'] = true
            · simp only [a4, if_true, Bool.or_eq_false_iff] at h ⊢
              have h1 := h.1
              match ls, hct, hlt, htail with
              | [], _, _, _ => simp [badKeyBlock] at h1
              | [a], _, _, _ => simp [badKeyBlock] at h1
              | [a, b], _, _, _ => simp [badKeyBlock] at h1
              | a :: b :: c :: rest, hct, hlt, htail =>
                simp only [badKeyBlock, List.take_succ_cons, List.take_zero, badRows, Bool.or_eq_false_iff] at h1
                obtain ⟨-, -, g1, g2, g3, -⟩ := h1
                obtain ⟨l1, f1⟩ := numbers_ok hw g1
                obtain ⟨l2, f2⟩ := numbers_ok hw g2
                obtain ⟨l3, f3⟩ := numbers_ok hw g3
                rw [List.mem_singleton] at l1 l2 l3
                obtain ⟨x, hx⟩ := readRow_ok l1 f1
                obtain ⟨y, hy⟩ := readRow_ok l2 f2
                obtain ⟨z, hz⟩ := readRow_ok l3 f3
                simp only [hx, hy, hz]
                refine next rest _ (by simp at hlt; omega) (fun x hx => hct x (by simp [hx])) ?_ hp
                exact bondLoop_tail (bondLoop_tail (bondLoop_tail htail))
            · simp only [a4, if_false, Bool.false_eq_true] at h ⊢
              exact next ls _ hlt hct htail hp

theorem bond_ok {L : Lib K} (hw : L.Words) {allowed lines : List Str} (hc : ∀ l ∈ lines, Clean l)
    (h : badBond L allowed lines = false) {s : St K}
    (hn : ∀ w ∈ allowed, ∃ A, s.getAtom (String.ofList w) = .ok A) :
    ∃ t, readBond L lines s = .ok t ∧ t.atoms = s.atoms := by
  simp only [badBond, Bool.or_eq_false_iff] at h
  have h1 := h.1.1.1.1.1.1
  have h2 := h.1.1.1.1.1.2
  match hs : (lines.headD []).split with
  | [] => simp only [hs, Bool.true_eq_false] at h1
  | [_] => simp only [hs, Bool.true_eq_false] at h1
  | [_, _] => simp only [hs, Bool.true_eq_false] at h1
  | [_, _, _] => simp only [hs, Bool.true_eq_false] at h1
  | [_, _, _, _] => simp only [hs, Bool.true_eq_false] at h1
  | _ :: _ :: _ :: _ :: _ :: _ :: _ => simp only [hs, Bool.true_eq_false] at h1
  | [a, b, i, j, k] =>
    simp only [hs, Bool.or_eq_false_iff, Bool.not_eq_false', Bool.and_eq_true, isInteger] at h1
    obtain ⟨⟨⟨⟨-, -⟩, ha⟩, hb⟩, ⟨hi, hj⟩, hk⟩ := h1
    obtain ⟨A, hA⟩ := hn a (Str.mem_iff.1 ha)
    obtain ⟨B, hB⟩ := hn b (Str.mem_iff.1 hb)
    obtain ⟨i', hi⟩ := Option.isSome_iff_exists.1 hi
    obtain ⟨j', hj⟩ := Option.isSome_iff_exists.1 hj
    obtain ⟨k', hk⟩ := Option.isSome_iff_exists.1 hk
    obtain ⟨t, ht, ha⟩ := bondLines_ok hw (R := (i', j', k')) _ lines.tail rfl (fun l hl => hc l (List.mem_of_mem_tail hl)) h2 {}
      s (by simp) hA hB
    refine ⟨t, ?_, ha⟩
    simp only [readBond, hs, parseInt, hi, hj, hk]
    exact ht

theorem bonds_ok {L : Lib K} (hw : L.Words) {allowed : List Str} {gs : List (List Str)} (hc : ∀ g ∈ gs, ∀ l ∈ g, Clean l)
    (h : ∀ g ∈ gs, badBond L allowed g = false) {s : St K}
    (hn : ∀ w ∈ allowed, ∃ A, s.getAtom (String.ofList w) = .ok A) :
    ∃ t, readBonds L gs s = .ok t ∧ t.atoms = s.atoms := by
  induction gs generalizing s with
  | nil => exact ⟨s, rfl, rfl⟩
  | cons g gs ih =>
    obtain ⟨t, h1, h2⟩ := bond_ok hw (hc g List.mem_cons_self) (h g List.mem_cons_self) hn
    obtain ⟨u, h3, h4⟩ := ih (fun x hx => hc x (List.mem_cons_of_mem _ hx)) (fun x hx => h x (List.mem_cons_of_mem _ hx))
      (s := t) (fun w hw' => by
        obtain ⟨A, hA⟩ := hn w hw'
        exact ⟨A, (getAtom_atoms h2 _).trans hA⟩)
    exact ⟨u, by rw [readBonds, h1]; exact h3, h4.trans h2⟩

/-! The blocks found by the verifier and those of the reader. -/

theorem groups_skip {sym : Char} {ls : List Str} (h : (skip sym ls).1 = false) :
    groups sym ls = groups sym (ls.drop (skip sym ls).2) := by
  induction ls with
  | nil => rfl
  | cons l ls ih =>
    rw [skip] at h ⊢
    by_cases hl : (!(isLong sym l || isShort sym l)) = true
    · simp [hl]
    · simp only [hl, if_false, Bool.false_eq_true, Bool.or_eq_false_iff, List.drop_succ_cons] at h ⊢
      rw [← ih h.2]
      have : isLong sym l = true := by
        simpa [h.1] using hl
      rw [groups.eq_def]
      simp [this]

theorem groups_body {sym : Char} {l : Str} {ls : List Str} (h : isLong sym l = false) :
    groups sym (l :: ls) = (l :: ls).take (body sym (l :: ls)).2 :: groups sym ((l :: ls).drop (body sym (l :: ls)).2) := by
  induction ls generalizing l with
  | nil => simp [groups, body, h]
  | cons d ls ih =>
    rw [groups.eq_def, body]
    simp only [h, if_false, Bool.false_eq_true]
    by_cases hd : isLong sym d = true
    · simp only [hd, if_true]
      rw [show body sym (d :: ls) = (false, 0) by rw [body, if_pos hd]]
      simp
    · simp only [hd, if_false, Bool.false_eq_true]
      rw [ih (by simpa using hd)]
      simp

theorem groups_scan {sym : Char} (lines : List Str) (fuel i : ℕ) (hf : lines.length ≤ i + fuel)
    (h : (scan sym lines fuel i).1 = false) :
    (scan sym lines fuel i).2.map (slice lines) = groups sym (lines.drop i) := by
  induction fuel generalizing i with
  | zero =>
    rw [scan, List.drop_eq_nil_of_le (by omega)]
    rfl
  | succ fuel ih =>
    rw [scan] at h ⊢
    by_cases h0 : lines.length ≤ i
    · simp only [h0, if_true, List.map_nil]
      rw [List.drop_eq_nil_of_le h0]
      rfl
    · simp only [h0, if_false] at h ⊢
      set a := skip sym (lines.drop i) with ha
      by_cases h1 : lines.length ≤ i + a.2
      · simp only [h1, if_true, List.map_nil] at h ⊢
        rw [groups_skip (by rw [← ha]; exact h), ← ha, List.drop_drop, List.drop_eq_nil_of_le h1]
        rfl
      · simp only [h1, if_false, Bool.or_eq_false_iff, List.map_cons] at h ⊢
        obtain ⟨⟨h2, h3⟩, h4⟩ := h
        rw [groups_skip (by rw [← ha]; exact h2), ← ha, List.drop_drop]
        have hs := (skip_spec sym (lines.drop i)).2.2.1
        rw [← ha] at hs
        have hlt : i + a.2 < lines.length := by omega
        have hlong := (hs lines[i + a.2] (by rw [List.getElem?_drop]; exact List.getElem?_eq_getElem hlt)).1
        set b := body sym (lines.drop (i + a.2)) with hb
        have hd : lines.drop (i + a.2) = lines[i + a.2] :: lines.drop (i + a.2 + 1) := List.drop_eq_getElem_cons hlt
        have hpos : 0 < b.2 := by
          rw [hb, hd, body, if_neg (by simp [hlong])]
          simp
        have hble : b.2 ≤ (lines.drop (i + a.2)).length := (body_spec sym _).1
        rw [List.length_drop] at hble
        rw [ih (i + a.2 + b.2) (by omega) h4]
        conv_rhs => rw [hd]
        rw [groups_body hlong, ← hd, ← hb, List.drop_drop]
        congr 1
        rw [slice, List.drop_take]
        congr 1
        omega

theorem mem_groups {sym : Char} {ls g : List Str} (h : g ∈ groups sym ls) : ∀ l ∈ g, l ∈ ls := by
  induction ls generalizing g with
  | nil => simp [groups] at h
  | cons a ls ih =>
    rw [groups.eq_def] at h
    simp only at h
    split_ifs at h
    · exact fun l hl => List.mem_cons_of_mem _ (ih h l hl)
    · cases ls with
      | nil =>
        simp only [List.mem_singleton] at h
        rw [h]; exact fun l hl => hl
      | cons d ls =>
        simp only at h
        split_ifs at h
        · rcases List.mem_cons.1 h with rfl | h
          · intro l hl
            rw [List.mem_singleton] at hl
            rw [hl]; exact List.mem_cons_self
          · exact fun l hl => List.mem_cons_of_mem _ (ih h l hl)
        · cases hg : groups sym (d :: ls) with
          | nil =>
            rw [hg] at h
            simp only [List.mem_singleton] at h
            rw [h]
            intro l hl
            rw [List.mem_singleton] at hl
            rw [hl]; exact List.mem_cons_self
          | cons g' gs =>
            rw [hg] at h
            rcases List.mem_cons.1 h with rfl | h
            · intro l hl
              rcases List.mem_cons.1 hl with rfl | hl
              · exact List.mem_cons_self
              · exact List.mem_cons_of_mem _ (ih (g := g') (by rw [hg]; exact List.mem_cons_self) l hl)
            · exact fun l hl => List.mem_cons_of_mem _ (ih (g := g) (by rw [hg]; exact List.mem_cons_of_mem _ h) l hl)

theorem energy_unit {line : Str} (h : badHeader line energyUnits = false) : ∃ u, HeaderUnit line u := by
  rcases header_ok h with ⟨w, e⟩ | ⟨w, u, x, e, hx, hs⟩
  · exact ⟨_, Or.inr ⟨⟨w, e⟩, rfl⟩⟩
  · have key : ∀ c : Char, x = [c] → ∃ t, Str.lower u = c :: t := by
      rintro c rfl
      exact Str.startsWith_char.1 hs
    simp only [energyUnits, List.mem_cons, List.not_mem_nil, or_false] at hx
    rcases hx with hx | hx | hx | hx | hx
    all_goals obtain ⟨t, ht⟩ := key _ hx
    · exact ⟨.milliElectronVolt, Or.inl ⟨w, u, t, [], e, ht⟩⟩
    · exact ⟨.electronVolt, Or.inl ⟨w, u, t, [], e, ht⟩⟩
    · exact ⟨.joule, Or.inl ⟨w, u, t, [], e, ht⟩⟩
    · exact ⟨.kelvin, Or.inl ⟨w, u, t, [], e, ht⟩⟩
    · exact ⟨.rydberg, Or.inl ⟨w, u, t, [], e, ht⟩⟩

theorem exchange_ok {L : Lib K} (hw : L.Words) {allowed lines : List Str} (hc : ∀ l ∈ lines, Clean l)
    (h : badExchange L allowed lines = false) (hj : ¬ HeaderUnit (lines.headD []) .joule) {s : St K}
    (hn : ∀ w ∈ allowed, ∃ A, s.getAtom (String.ofList w) = .ok A) :
    ∃ t, readExchange L lines s = .ok t ∧ t.atoms = s.atoms := by
  simp only [badExchange, Bool.or_eq_false_iff] at h
  obtain ⟨⟨⟨h1, h2⟩, -⟩, h4⟩ := h
  obtain ⟨u, hu⟩ := energy_unit h1
  have hne : u ≠ .joule := by rintro rfl; exact hj hu
  obtain ⟨t, ht⟩ := energyName_unit hu
  have f : ∃ c : K, exchangeFactor (u.letter :: t) = .ok c := by
    cases u <;> simp_all [exchangeFactor, Str.startsWith, EnergyUnit.letter, List.isPrefixOf]
  obtain ⟨c, hcc⟩ := f
  have hg := groups_scan lines.tail lines.tail.length 0 (by simp) h2
  rw [List.drop_zero] at hg
  obtain ⟨t, h5, h6⟩ := bonds_ok hw (gs := groups '-' lines.tail) (allowed := allowed)
    (fun g hg l hl => hc l (List.mem_of_mem_tail (mem_groups hg l hl))) (fun g hg' => by
      rw [← hg] at hg'
      obtain ⟨p, hp, rfl⟩ := List.mem_map.1 hg'
      simpa using List.any_eq_false.1 h4 p hp) hn
  refine ⟨t, ?_, h6⟩
  simp only [readExchange, ht, hcc, bind, Except.bind]
  exact h5

/-! ### On-site -/

theorem siteMatrix_ok {L : Lib K} (c : K) {ws : List Str} (hl : ws.length = 6) (h : ∀ w ∈ ws, (L.float w).isSome) :
    ∃ m, siteMatrix L c ws = .ok m := by
  obtain ⟨xs, h1, h2, -⟩ := floats_ok h
  rw [hl] at h2
  match ws, hl with
  | [a1, a2, a3, a4, a5, a6], _ =>
    match xs, h2 with
    | [x1, x2, x3, x4, x5, x6], _ =>
      simp only [siteMatrix, h1]
      exact ⟨_, rfl⟩

theorem siteLines_ok {L : Lib K} (hw : L.Words) (c : K) {allowed : List Str} (n : ℕ) : ∀ ls : List Str, ls.length = n →
    (∀ l ∈ ls, Clean l) → (siteLoop L allowed ls).1 = false → ∀ s : St K,
    (∀ w ∈ allowed, ∃ A, s.getAtom (String.ofList w) = .ok A) →
    ∃ t, siteLines L c ls s = .ok t ∧ t.atoms = s.atoms := by
  induction n using Nat.strong_induction_on with
  | _ n IH =>
    intro ls hlen hc h s hn
    cases ls with
    | nil => exact ⟨s, rfl, rfl⟩
    | cons l ls =>
      have hl := hc l List.mem_cons_self
      have hct : ∀ x ∈ ls, Clean x := fun x hx => hc x (List.mem_cons_of_mem _ hx)
      have hlt : ls.length < n := by rw [← hlen]; simp
      rw [siteLoop.eq_def] at h
      simp only at h
      by_cases hlong : isLong '-' l = true
      · simp only [hlong, Bool.true_or, if_true, Bool.or_eq_false_iff] at h
        rw [siteLines.eq_def]
        simp only [hlong, if_true]
        exact IH ls.length hlt ls rfl hct h.2 s hn
      · simp only [hlong, Bool.false_or] at h
        by_cases hshort : isShort '-' l = true
        · simp [hshort] at h
        · simp only [hshort, if_false, Bool.false_eq_true] at h
          rw [siteLines.eq_def]
          simp only [hlong, if_false, Bool.false_eq_true]
          cases ls with
          | nil => simp at h
          | cons v rest =>
            simp only [Bool.or_eq_false_iff, decide_eq_false_iff_not, not_not, Bool.not_eq_false', badBlock, badRows] at h
            obtain ⟨⟨⟨⟨h1, -⟩, h2⟩, -, h3, -⟩, h4⟩ := h
            obtain ⟨w, ws, e1, e2⟩ := Str.split_ne_nil hl
            have hws : ws = [] := by
              rw [e1] at h1
              simpa using h1
            rw [hws] at e1
            have hlw := Str.split_single hl e1
            obtain ⟨A, hA⟩ := hn l.first (Str.mem_iff.1 h2)
            rw [← e2, ← hlw] at hA
            rw [Str.strip_clean hl.1, hA]
            obtain ⟨n1, f1⟩ := numbers_ok hw h3
            rw [List.mem_singleton] at n1
            obtain ⟨m, hm⟩ := siteMatrix_ok c n1 f1
            simp only [hm]
            have hmem := St.getAtom_mem hA
            set t1 : St K := { (s.alloc m).1 with onSite := s.onSite.set A s.next } with ht1
            have hadd : (s.addOnSite (.atom A) (.fresh m)).toExcept = .ok t1 := by
              simp only [St.addOnSite, St.findOrAdd, hmem, if_true, St.resolve, St.alloc, Res.toExcept, Res.ok]
              rfl
            rw [hadd]
            have hat : t1.atoms = s.atoms := rfl
            obtain ⟨u, hu, ha⟩ := IH rest.length (by simp at hlt; omega) rest rfl (fun x hx => hct x (List.mem_cons_of_mem _ hx))
              h4 t1 (fun w hw' => by
                obtain ⟨B, hB⟩ := hn w hw'
                exact ⟨B, (getAtom_atoms hat _).trans hB⟩)
            exact ⟨u, hu, ha.trans hat⟩

theorem onSite_ok {L : Lib K} (hw : L.Words) {allowed lines : List Str} (hc : ∀ l ∈ lines, Clean l)
    (h : badOnSite L allowed lines = false) {s : St K}
    (hn : ∀ w ∈ allowed, ∃ A, s.getAtom (String.ofList w) = .ok A) :
    ∃ t, readOnSite L lines s = .ok t ∧ t.atoms = s.atoms := by
  simp only [badOnSite, Bool.or_eq_false_iff] at h
  obtain ⟨⟨h1, h2⟩, -⟩ := h
  obtain ⟨u, hu⟩ := energy_unit h1
  obtain ⟨t, ht⟩ := energyName_unit hu
  obtain ⟨v, h5, h6⟩ := siteLines_ok hw (u.inMeV : K) _ lines.tail rfl (fun l hl => hc l (List.mem_of_mem_tail hl)) h2 s hn
  refine ⟨v, ?_, h6⟩
  simp only [readOnSite, ht, onSiteFactor_unit, bind, Except.bind]
  exact h5

/-! ### Cone axis and spiral vector -/

theorem relative_ok {line : Str} (h : badHeader line [['a'], ['r']] = false) : ∃ b, isRelative line = .ok b := by
  rcases header_ok h with ⟨w, e⟩ | ⟨w, u, x, e, hx, hs⟩
  · refine ⟨true, ?_⟩
    rw [isRelative, Str.split_lower, e]
    rfl
  · rw [isRelative, Str.split_lower, e]
    simp only [List.map_cons, List.map_nil]
    rcases List.mem_cons.1 hx with rfl | hx
    · by_cases hr : Str.startsWith u.lower ['r'] = true
      · exact ⟨true, if_pos hr⟩
      · exact ⟨false, by rw [if_neg hr, if_pos hs]⟩
    · rw [List.mem_singleton] at hx
      subst hx
      exact ⟨true, if_pos hs⟩

theorem spiral_ok {L : Lib K} (hw : L.Words) {lines : List Str} (h : badSpiral L lines = false) (cell : M3 K) :
    ∃ q, readSpiral L cell lines = .ok q := by
  rw [badSpiral] at h
  by_cases hl : lines.length ≠ 2
  · rw [if_pos hl] at h; simp at h
  · rw [if_neg hl] at h
    simp only [Bool.or_eq_false_iff, badBlock, badRows] at h
    obtain ⟨b, hb⟩ := relative_ok h.1
    obtain ⟨n1, f1⟩ := numbers_ok hw h.2.2.1
    rw [List.mem_singleton] at n1
    obtain ⟨xs, h1, h2, -⟩ := floats_ok f1
    rw [n1] at h2
    match xs, h2 with
    | [x, y, z], _ =>
      rw [readSpiral, hb]
      simp only [bind, Except.bind, h1]
      exact ⟨_, rfl⟩

theorem setCone_ok [LinearOrder K] [IsStrictOrderedRing K] {L : Lib K} {v : V3 K}
    (hv : 1 ≤ |v 0| + |v 1| + |v 2|) : ∃ n, setCone L v = .ok n := by
  rw [setCone, if_neg]
  · exact ⟨_, rfl⟩
  · intro h
    have h' : ∀ i, |v i| ≤ 1 / 10 ^ 8 := fun i => by
      simpa using List.all_eq_true.1 h i (List.mem_finRange i)
    have : (1 : K) ≤ 1 / 10 ^ 8 + 1 / 10 ^ 8 + 1 / 10 ^ 8 := hv.trans (add_le_add (add_le_add (h' 0) (h' 1)) (h' 2))
    norm_num at this

theorem unit_sum [LinearOrder K] [IsStrictOrderedRing K] {a b c : K} (h : a * a + b * b + c * c = 1) :
    1 ≤ |a| + |b| + |c| := by
  by_contra hc
  push Not at hc
  have h1 := abs_mul_abs_self a
  have h2 := abs_mul_abs_self b
  have h3 := abs_mul_abs_self c
  nlinarith [abs_nonneg a, abs_nonneg b, abs_nonneg c, mul_nonneg (abs_nonneg a) (abs_nonneg b),
    mul_nonneg (abs_nonneg a) (abs_nonneg c), mul_nonneg (abs_nonneg b) (abs_nonneg c)]

theorem vecMul_ne_zero {v : V3 K} {m : M3 K} (hm : Matrix.det m ≠ 0) (h : vecMul v m = 0) : v = 0 := by
  have : Matrix.vecMul v m = 0 := by
    rw [← h]
    funext j
    simp [Matrix.vecMul, dotProduct, Fin.sum_univ_three, vecMul]
  exact Matrix.eq_zero_of_vecMul_eq_zero hm this

theorem cone_ok [LinearOrder K] [IsStrictOrderedRing K] {L : Lib K} (hw : L.Words) (hL : L.Norm) {lines : List Str}
    (h : badCone L lines = false) {cell : M3 K} (hd : Matrix.det cell ≠ 0)
    (hz : ∀ a b c, (lines.getD 1 []).split = [a, b, c] → ¬ (L.float a = some 0 ∧ L.float b = some 0 ∧ L.float c = some 0)) :
    ∃ n, readCone L cell lines = .ok n := by
  rw [badCone] at h
  by_cases hl : lines.length ≠ 2
  · rw [if_pos hl] at h; simp at h
  · rw [if_neg hl] at h
    simp only [Bool.or_eq_false_iff, badBlock, badRows] at h
    obtain ⟨b, hb⟩ := relative_ok h.1
    obtain ⟨n1, f1⟩ := numbers_ok hw h.2.2.1
    obtain ⟨xs, h1, h2, h3⟩ := floats_ok f1
    rw [readCone, hb]
    simp only [bind, Except.bind, h1]
    rcases List.mem_cons.1 n1 with n | n
    · rw [n] at h2
      match hs : (lines.getD 1 []).split, n with
      | [a, d, e], _ =>
        rw [hs] at h3
        match xs, h2 with
        | [x, y, z], _ =>
          have hne : (![x, y, z] : V3 K) ≠ 0 := by
            intro h0
            have e0 : x = 0 := congrFun h0 0
            have e1 : y = 0 := congrFun h0 1
            have e2 : z = 0 := congrFun h0 2
            refine hz a d e hs ⟨?_, ?_, ?_⟩
            · have := (h3 0).symm; simpa [e0] using this
            · have := (h3 1).symm; simpa [e1] using this
            · have := (h3 2).symm; simpa [e2] using this
          set v : V3 K := if b = true then vecMul ![x, y, z] cell else ![x, y, z] with hv
          have hvne : v ≠ 0 := by
            rw [hv]
            split_ifs
            · exact fun h0 => hne (vecMul_ne_zero hd h0)
            · exact hne
          show ∃ n, setCone L (fun i => v i / L.norm v) = .ok n
          clear_value v
          apply setCone_ok
          have hp := hL.pos v hvne
          simp only [abs_div, abs_of_pos hp]
          rw [← add_div, ← add_div, one_le_div hp]
          exact hL.le v
    · rw [List.mem_singleton] at n
      rw [n] at h2
      match xs, h2 with
      | [alpha, beta], _ =>
        apply setCone_ok
        apply unit_sum
        have c1 := hL.circle alpha
        have c2 := hL.circle beta
        simp only [Matrix.cons_val_zero, Matrix.cons_val_one, Matrix.cons_val]
        linear_combination c1 + L.sin alpha * L.sin alpha * c2

end
end Magnopy
