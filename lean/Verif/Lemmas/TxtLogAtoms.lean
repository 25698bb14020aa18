import Verif.Lemmas.TxtLog

/-!
# Lemmas: the messages about the atoms and the notation of a model file
-/

set_option autoImplicit false
set_option linter.unusedSectionVars false

namespace Magnopy.Txt

open Log

section
variable {K : Type} [Field K] [LinearOrder K] {L : Lib K} {sec : Str → Option (List Line)} {names : List Str}
  {at' : ℕ → Str → Prop}

theorem zip_later {α : Type*} (q : α → Bool) (l : List α) {k m : ℕ} (h : k < m) :
    (l.zipIdx m).any (fun p => decide (some k ≠ some p.2) && q p.1) = l.any q := by
  induction l generalizing m with
  | nil => rfl
  | cons a l ih =>
    have : decide (some k ≠ some m) = true := by simp; omega
    rw [List.zipIdx_cons, List.any_cons, List.any_cons, ih (by omega), this, Bool.true_and]

theorem zip_erase {α : Type*} (q : α → Bool) (l : List α) (n i : ℕ) :
    (l.zipIdx n).any (fun p => decide (some (n + i) ≠ some p.2) && q p.1) = (l.eraseIdx i).any q := by
  induction l generalizing n i with
  | nil => rfl
  | cons a l ih =>
    cases i with
    | zero =>
      have : decide (some (n + 0) ≠ some n) = false := by simp
      rw [List.zipIdx_cons, List.any_cons, this, Bool.false_and, Bool.false_or, List.eraseIdx_zero, List.tail_cons]
      exact zip_later q l (by omega)
    | succ i =>
      have : decide (some (n + (i + 1)) ≠ some n) = true := by simp
      rw [List.zipIdx_cons, List.any_cons, this, Bool.true_and, List.eraseIdx_cons_succ, List.any_cons, ← ih (n + 1) i,
        show n + 1 + i = n + (i + 1) by omega]

/-- What the loop needs to know about the header of the atoms. -/
structure Titles (sec : Str → Option (List Line)) (s : List Line) (h : Line) : Prop where
  sec : sec (Str.lit "atoms") = some s
  second : s[1]? = some h

theorem blocksLog_fits {s : List Line} {h l : Line} (T : Titles sec s h) (hl : at' l.2 l.1) {ni : Option ℕ}
    (hni : ni = (lowWords h.1).idxOf? (Str.lit "name")) :
    Fits (Msg.Holds L sec names at')
      (l.1.split.zipIdx.any fun p => decide (ni ≠ some p.2) && (!isFloat L p.1 && p.1 != ['-']))
      (blocksLog L l.2 ni l.1.split) := by
  unfold blocksLog
  refine Fits.all fun p hp => Fits.msg rfl fun hc => ?_
  rw [Bool.and_eq_true, Bool.and_eq_true] at hc
  obtain ⟨h1, h2, h3⟩ := hc
  refine ⟨by simpa [isFloat] using h2, by simpa using h3, l.1, p.2, hl, rfl, ?_, s, h, T.sec, T.second, ?_⟩
  · simpa using List.mk_mem_zipIdx_iff_getElem?.1 hp
  · rw [← hni]; simpa using h1

theorem atomsLoopLog_fits {s : List Line} {h : Line} (T : Titles sec s h) {ni : Option ℕ}
    (hni : ni = (lowWords h.1).idxOf? (Str.lit "name")) {n : ℕ} (hn : n = h.1.split.length) {ls : List Line}
    (H : ∀ l ∈ ls, at' l.2 l.1) {acc : Log} {a : Bool} (ha : Fits (Msg.Holds L sec names at') a acc) :
    match atomsLoop L n ni (ls.map Prod.fst) with
    | .error e => (atomsLoopLog L n ni acc ls).2 = .error e ∧
        ∃ b, Fits (Msg.Holds L sec names at') b (atomsLoopLog L n ni acc ls).1
    | .ok r => (atomsLoopLog L n ni acc ls).2 = .ok r.1 ∧
        Fits (Msg.Holds L sec names at') (a || r.2) (atomsLoopLog L n ni acc ls).1 ∧
        r.1.length ≤ ls.length ∧
        r.1 = ni.elim [] fun i => ls.filterMap fun l => l.1.split[i]? := by
  induction ls generalizing acc a with
  | nil =>
    refine ⟨rfl, ha.cast (by simp), le_refl _, ?_⟩
    cases ni <;> rfl
  | cons l ls ih =>
    have hl := H l List.mem_cons_self
    have H' : ∀ x ∈ ls, at' x.2 x.1 := fun x hx => H x (List.mem_cons_of_mem _ hx)
    have h1 : Fits (Msg.Holds L sec names at') (a || decide (l.1.split.length ≠ n)) _ :=
      ha.and (Fits.msg (m := .atomBlocks l.2 n l.1) rfl fun hc =>
        ⟨hl, by simpa using hc, s, h, T.sec, T.second, hn.symm⟩)
    have hb := blocksLog_fits (L := L) (names := names) T hl hni
    rw [List.map_cons]
    cases ni with
    | none =>
      have step := ih H' (h1.and hb)
      simp only [atomsLoop, atomsLoopLog]
      cases hr : atomsLoop L n none (ls.map Prod.fst) with
      | error e => rw [hr] at step; exact step
      | ok r =>
        rw [hr] at step
        obtain ⟨s1, s2, s3, s4⟩ := step
        refine ⟨s1, s2.cast ?_, by simp only [List.length_cons]; omega, s4⟩
        rw [← any_zipIdx _ l.1.split 0]
        simp [Bool.or_assoc]
    | some i =>
      simp only [atomsLoop, atomsLoopLog]
      cases hw : l.1.split[i]? with
      | none => exact ⟨rfl, _, h1⟩
      | some name =>
        have step := ih H' ((h1.orElse (nameLog_fits hl (List.mem_of_getElem? hw))).and hb)
        simp only
        cases hr : atomsLoop L n (some i) (ls.map Prod.fst) with
        | error e =>
          rw [hr] at step
          exact ⟨by rw [step.1]; rfl, step.2⟩
        | ok r =>
          rw [hr] at step
          obtain ⟨s1, s2, s3, s4⟩ := step
          refine ⟨by rw [s1]; rfl, s2.cast ?_, by simp only [List.length_cons]; omega, ?_⟩
          · have := zip_erase (fun b => !isFloat L b && b != ['-']) l.1.split 0 i
            rw [Nat.zero_add] at this
            rw [this]
            simp [Bool.or_assoc]
          · rw [s4]
            exact (List.filterMap_cons_some (f := fun x : Line => x.1.split[i]?) hw).symm

theorem getLast?_getLastD {s : List Line} (h : s ≠ []) :
    s.getLast? = some ((s.getLastD ([], 0)).1, (s.getLastD ([], 0)).2) := by
  rw [List.getLastD_eq_getLast?]
  cases hs : s.getLast? with
  | none => exact absurd (List.getLast?_eq_none_iff.1 hs) h
  | some p => rfl

theorem atomsLog_fits {s : List Line} (hs : sec (Str.lit "atoms") = some s) (H : Lines at' s) (hne : s ≠ []) :
    match verifyAtoms L (s.map Prod.fst) with
    | .error e => (atomsLog L s).2 = .error e ∧ ∃ b, Fits (Msg.Holds L sec names at') b (atomsLog L s).1
    | .ok r => (atomsLog L s).2 = .ok r.1 ∧ Fits (Msg.Holds L sec names at') r.2 (atomsLog L s).1 ∧ r.1 = nameColumn s := by
  unfold verifyAtoms atomsLog
  simp only
  rw [List.length_map, headD_fst, getD_fst, ← List.map_drop]
  have hh := headD_mem hne
  by_cases h3 : s.length < 3
  · simp only [if_pos h3]
    have hz : Fits (Msg.Holds L sec names at') (decide (s.length < 3)) _ :=
      Fits.msg (m := .atLeast (s.headD ([], 0)).2 (Str.lit "atoms") 3 s.length) rfl fun _ =>
        ⟨h3, s, _, hs, head?_headD hne, H.at' _ hh, rfl⟩
    refine ⟨trivial, (hz.and hz).cast (by simp [h3]), ?_⟩
    rw [nameColumn, List.drop_eq_nil_of_le (by omega)]
    split <;> rfl
  · simp only [if_neg h3]
    obtain ⟨m1, m2⟩ := getD_mem (s := s) (i := 1) (by omega)
    obtain ⟨k1, k2⟩ := getD_mem (s := s) (i := 2) (by omega)
    have T : Titles sec s (s.getD 1 ([], 0)) := ⟨hs, m2⟩
    obtain ⟨a1, a2, a3⟩ := atomsHeaderLog_fits (L := L) (sec := sec) (names := names) (at' := at') (H.at' _ m1)
    have he : Fits (Msg.Holds L sec names at') _ _ := headerLog_fits [['a'], ['b']] (H.at' _ hh) (H.clean _ hh)
    have loop := atomsLoopLog_fits (L := L) (names := names) T (ni := (atomsHeader (s.getD 1 ([], 0)).1).2.1)
      (by rw [lowWords_eq]; rfl) (n := (atomsHeader (s.getD 1 ([], 0)).1).1) rfl (ls := s.drop 2)
      (fun l hl => H.at' l (List.mem_of_mem_drop hl)) (he.and a3)
    rw [a1, a2]
    set R := atomsLoopLog L (atomsHeader (s.getD 1 ([], 0)).1).1 (atomsHeader (s.getD 1 ([], 0)).1).2.1
      ((headerLog (s.headD ([], 0)) [['a'], ['b']]).and (atomsHeaderLog (s.getD 1 ([], 0))).2.2) (s.drop 2)
    cases hr : atomsLoop L (atomsHeader (s.getD 1 ([], 0)).1).1 (atomsHeader (s.getD 1 ([], 0)).1).2.1
      ((s.drop 2).map Prod.fst) with
    | error e =>
      rw [hr] at loop
      simp only [loop.1]
      exact ⟨trivial, loop.2⟩
    | ok r =>
      rw [hr] at loop
      obtain ⟨s1, s2, s3, s4⟩ := loop
      simp only [s1]
      have e : r.1 = nameColumn s := by
        rw [s4, nameColumn, lowWords_eq]
        show Option.elim ((s.getD 1 ([], 0)).1.lower.split.idxOf? (Str.lit "name")) _ _ = _
        cases (s.getD 1 ([], 0)).1.lower.split.idxOf? (Str.lit "name") <;> rfl
      refine ⟨trivial, (s2.and (Fits.msg rfl fun hc => ?_)).cast (by simp [Bool.or_assoc]), e⟩
      refine ⟨s, _, _, hs, k2, H.at' _ k1, getLast?_getLastD hne, by rw [← e], ?_⟩
      rw [decide_eq_true_eq] at hc
      have q1 := (List.dedup_sublist r.1).length_le
      rw [List.length_drop] at s3
      omega

/-- The found properties without the numbers of their lines. -/
def valuesOf (d : PyDict (Option Char) Line) : PyDict (Option Char) Str := d.map fun p => (p.1, p.2.1)

theorem valuesOf_get? (d : PyDict (Option Char) Line) (k : Option Char) :
    (valuesOf d).get? k = (d.get? k).map Prod.fst := by
  induction d with
  | nil => rfl
  | cons p d ih =>
    show PyDict.get? ((p.1, p.2.1) :: valuesOf d) k = _
    obtain ⟨a, b⟩ := p
    by_cases h : a = k
    · simp [PyDict.get?, h]
    · simp [PyDict.get?, h, ih]

theorem valuesOf_set (d : PyDict (Option Char) Line) (k : Option Char) (v : Line) :
    valuesOf (d.set k v) = (valuesOf d).set k v.1 := by
  induction d with
  | nil => rfl
  | cons p d ih =>
    obtain ⟨a, b⟩ := p
    show valuesOf (PyDict.set ((a, b) :: d) k v) = PyDict.set ((a, b.1) :: valuesOf d) k v.1
    by_cases h : a = k
    · simp [PyDict.set, h, valuesOf]
    · simp only [PyDict.set, h, if_false, ← ih]
      rfl

/-- The properties found in the lines `done`. -/
structure Found (done : List Line) (d : PyDict (Option Char) Line) : Prop where
  from' : ∀ k p, d.get? k = some p → ∃ l w, (l, p.2) ∈ done ∧ lowWords l = [w, p.1] ∧ w.head? = k
  all : ∀ l ∈ done, ∀ w v, lowWords l.1 = [w, v] → (d.get? w.head?).isSome = true

theorem notationLoopLog_fits {ls done : List Line} {d : PyDict (Option Char) Line} (H : ∀ l ∈ done ++ ls, at' l.2 l.1)
    (hs : (done ++ ls).Pairwise fun p q => p.2 < q.2) (hd : Found done d) :
    Fits (Msg.Holds L sec names at') (notationLoop (ls.map Prod.fst) (valuesOf d)).1 (notationLoopLog ls d).1 ∧
      (notationLoop (ls.map Prod.fst) (valuesOf d)).2 = valuesOf (notationLoopLog ls d).2 ∧
      Found (done ++ ls) (notationLoopLog ls d).2 := by
  induction ls generalizing done d with
  | nil => exact ⟨Fits.nil, rfl, by rw [List.append_nil]; exact hd⟩
  | cons l ls ih =>
    have hl : at' l.2 l.1 := H l (by simp)
    have e : done ++ l :: ls = (done ++ [l]) ++ ls := by simp
    have H' : ∀ x ∈ (done ++ [l]) ++ ls, at' x.2 x.1 := by rw [← e]; exact H
    have hs' : ((done ++ [l]) ++ ls).Pairwise fun p q => p.2 < q.2 := by rw [← e]; exact hs
    have hw := lowWords_eq l.1
    have other : (∀ w v, lowWords l.1 = [w, v] → (d.get? w.head?).isSome = true) → Found (done ++ [l]) d := fun h => by
      refine ⟨fun k p hp => ?_, fun x hx w v hwv => ?_⟩
      · obtain ⟨x, w, h1, h2⟩ := hd.from' k p hp
        exact ⟨x, w, List.mem_append_left _ h1, h2⟩
      · rcases List.mem_append.1 hx with hx | hx
        · exact hd.all x hx w v hwv
        · rw [List.mem_singleton.1 hx] at hwv
          exact h w v hwv
    rw [e, List.map_cons]
    match hsp : l.1.lower.split with
    | [k, v] =>
      by_cases hf : (d.get? k.head?).isSome = true
      · have hf' : ((valuesOf d).get? k.head?).isSome = true := by rw [valuesOf_get?, Option.isSome_map]; exact hf
        simp only [notationLoop, notationLoopLog, hsp, hf, hf', if_true]
        obtain ⟨i1, i2, i3⟩ := ih H' hs' (other fun w v' hwv => by
          rw [hw, hsp] at hwv
          simp only [List.cons.injEq] at hwv
          rw [← hwv.1]; exact hf)
        refine ⟨((Fits.msg (c := true) rfl fun _ => ?_).and i1).cast (by simp), i2, i3⟩
        obtain ⟨p, hp⟩ := Option.isSome_iff_exists.1 hf
        obtain ⟨l', w', q1, q2, q3⟩ := hd.from' _ p hp
        have lt : p.2 < l.2 := (List.pairwise_append.1 hs).2.2 _ q1 l (by simp)
        exact ⟨l.1, v, l', p.2, w', p.1, hl, by rw [hw, hsp], lt, H _ (List.mem_append_left _ q1), q2, q3⟩
      · have hf' : ¬ ((valuesOf d).get? k.head?).isSome = true := by rw [valuesOf_get?, Option.isSome_map]; exact hf
        simp only [notationLoop, notationLoopLog, hsp, hf, hf', Bool.false_eq_true, if_false]
        rw [show (valuesOf d).set k.head? v = valuesOf (d.set k.head? (v, l.2)) from (valuesOf_set d k.head? (v, l.2)).symm]
        refine ih H' hs' ⟨fun k' p hp => ?_, fun x hx w v' hwv => ?_⟩
        · rw [PyDict.get?_set] at hp
          split_ifs at hp with hk
          · simp only [Option.some.injEq] at hp
            subst hp hk
            exact ⟨l.1, k, by simp, by rw [hw, hsp], rfl⟩
          · obtain ⟨x, w, h1, h2⟩ := hd.from' k' p hp
            exact ⟨x, w, List.mem_append_left _ h1, h2⟩
        · rw [PyDict.get?_set]
          split_ifs with hk
          · rfl
          · rcases List.mem_append.1 hx with hx | hx
            · exact hd.all x hx w v' hwv
            · rw [List.mem_singleton.1 hx, hw, hsp] at hwv
              simp only [List.cons.injEq] at hwv
              exact (hk (by rw [hwv.1])).elim
    | [] =>
      simp only [notationLoop, notationLoopLog, hsp]
      obtain ⟨i1, i2, i3⟩ := ih H' hs' (other fun w v' hwv => by rw [hw, hsp] at hwv; simp at hwv)
      refine ⟨((Fits.msg (c := true) rfl fun _ => ⟨hl, ?_⟩).and i1).cast (by simp), i2, i3⟩
      rw [← List.length_map (f := Str.lower), show l.1.split.map Str.lower = _ from hw, hsp]; simp
    | [a] =>
      simp only [notationLoop, notationLoopLog, hsp]
      obtain ⟨i1, i2, i3⟩ := ih H' hs' (other fun w v' hwv => by rw [hw, hsp] at hwv; simp at hwv)
      refine ⟨((Fits.msg (c := true) rfl fun _ => ⟨hl, ?_⟩).and i1).cast (by simp), i2, i3⟩
      rw [← List.length_map (f := Str.lower), show l.1.split.map Str.lower = _ from hw, hsp]; simp
    | a :: b :: c :: t =>
      simp only [notationLoop, notationLoopLog, hsp]
      obtain ⟨i1, i2, i3⟩ := ih H' hs' (other fun w v' hwv => by rw [hw, hsp] at hwv; simp at hwv)
      refine ⟨((Fits.msg (c := true) rfl fun _ => ⟨hl, ?_⟩).and i1).cast (by simp), i2, i3⟩
      rw [← List.length_map (f := Str.lower), show l.1.split.map Str.lower = _ from hw, hsp]; simp

theorem propertyLog_fits {s : List Line} (hsec : sec (Str.lit "notation") = some s) (H : Lines at' s) (hne : s ≠ [])
    {d : PyDict (Option Char) Line} (hd : Found s.tail d) (c : Char) (expected : Bool) (f : Str → Bool) (name kind : String)
    (hn : (Str.lit name).head? = some c)
    (hf : ∀ w, w.lower = w → f w = false → (Str.lit kind = Str.lit "boolean" ∧ (c = 'd' ∨ c = 's') ∧ w ∉ trueWords ∧ w ∉ falseWords) ∨
        (Str.lit kind = Str.lit "number" ∧ (c = 'e' ∨ c = 'o') ∧ L.float w = none)) :
    Fits (Msg.Holds L sec names at') (match (valuesOf d).get? (some c) with
      | none => expected
      | some v => !f v) (propertyLog (s.headD ([], 0)).2 d c expected f name kind) := by
  unfold propertyLog
  rw [valuesOf_get?]
  cases hg : d.get? (some c) with
  | none =>
    simp only [Option.map_none]
    refine Fits.msg rfl fun _ => ⟨s, _, hsec, head?_headD hne, H.at' _ (headD_mem hne), fun p hp k v hkv he => ?_⟩
    have := hd.all p hp k v hkv
    rw [he, hn, hg] at this
    simp at this
  | some p =>
    simp only [Option.map_some]
    refine Fits.msg rfl fun h => ?_
    obtain ⟨l, w, q1, q2, q3⟩ := hd.from' _ p hg
    obtain ⟨t, rfl⟩ : ∃ t, w = c :: t := by
      cases w with
      | nil => simp at q3
      | cons a t => exact ⟨t, by simpa using q3⟩
    exact ⟨l, c, t, H.at' _ (List.mem_of_mem_tail q1), q2, hf p.1 (low_lower (by rw [q2]; simp)) (by simpa using h)⟩

theorem bool_word {w : Str} (hw : w.lower = w) (h : isBool w = false) : w ∉ trueWords ∧ w ∉ falseWords := by
  rw [isBool, hw, Str.mem, List.any_eq_false] at h
  exact ⟨fun hm => h w (List.mem_append_left _ hm) (by simp), fun hm => h w (List.mem_append_right _ hm) (by simp)⟩

theorem notationLog_fits {s : List Line} (hsec : sec (Str.lit "notation") = some s) (H : Lines at' s) (hne : s ≠ [])
    (hs : s.Pairwise fun p q => p.2 < q.2) (e o : Bool) :
    Fits (Msg.Holds L sec names at') (badNotation L (s.map Prod.fst) e o) (notationLog L s e o) := by
  have hh := headD_mem hne
  obtain ⟨l1, l2, l3⟩ := notationLoopLog_fits (L := L) (sec := sec) (names := names) (at' := at') (ls := s.tail) (done := [])
    (d := []) (fun l hl => H.at' l (List.mem_of_mem_tail hl)) (hs.sublist (List.tail_sublist s))
    ⟨fun k p hp => by simp [PyDict.get?] at hp, fun l hl => by simp at hl⟩
  rw [List.nil_append] at l3
  unfold badNotation notationLog
  simp only
  rw [List.length_map, headD_fst, tail_fst]
  rw [show (notationLoop (s.tail.map Prod.fst) []).2 = valuesOf (notationLoopLog s.tail []).2 from l2]
  have h1 : Fits (Msg.Holds L sec names at') (decide (s.length < e.toNat + o.toNat + e.toNat + (e || o).toNat + 1)) _ :=
    Fits.msg (m := .atLeast (s.headD ([], 0)).2 (Str.lit "notation") (e.toNat + o.toNat + e.toNat + (e || o).toNat + 1) s.length)
      rfl fun hc => ⟨by simpa using hc, s, _, hsec, head?_headD hne, H.at' _ hh, rfl⟩
  have h2 : Fits (Msg.Holds L sec names at') _ _ := headerLog_fits [] (H.at' _ hh) (H.clean _ hh)
  have hb : ∀ (c : Char), c = 'd' ∨ c = 's' → ∀ w : Str, w.lower = w → isBool w = false →
      (Str.lit "boolean" = Str.lit "boolean" ∧ (c = 'd' ∨ c = 's') ∧ w ∉ trueWords ∧ w ∉ falseWords) ∨
        (Str.lit "boolean" = Str.lit "number" ∧ (c = 'e' ∨ c = 'o') ∧ L.float w = none) :=
    fun c hc w h3 h4 => Or.inl ⟨rfl, hc, bool_word h3 h4⟩
  have hf : ∀ (c : Char), c = 'e' ∨ c = 'o' → ∀ w : Str, w.lower = w → isFloat L w = false →
      (Str.lit "number" = Str.lit "boolean" ∧ (c = 'd' ∨ c = 's') ∧ w ∉ trueWords ∧ w ∉ falseWords) ∨
        (Str.lit "number" = Str.lit "number" ∧ (c = 'e' ∨ c = 'o') ∧ L.float w = none) :=
    fun c hc w h3 h4 => Or.inr ⟨rfl, hc, by simpa [isFloat] using h4⟩
  have p1 := propertyLog_fits (L := L) (names := names) hsec H hne l3 'd' e isBool "double-counting" "boolean" (by decide) (hb 'd' (Or.inl rfl))
  have p2 := propertyLog_fits (L := L) (names := names) hsec H hne l3 's' (e || o) isBool "spin-normalized" "boolean" (by decide) (hb 's' (Or.inr rfl))
  have p3 := propertyLog_fits (L := L) (names := names) hsec H hne l3 'e' e (isFloat L) "exchange-factor" "number" (by decide) (hf 'e' (Or.inl rfl))
  have p4 := propertyLog_fits (L := L) (names := names) hsec H hne l3 'o' o (isFloat L) "on-site-factor" "number" (by decide) (hf 'o' (Or.inr rfl))
  have h5 : ∀ rest, rest = (notationLoopLog s.tail []).2.keys.filter
      (fun k => !([some 'd', some 's', some 'e', some 'o'].contains k)) → (!rest.isEmpty) = true →
      (Msg.warnProperties rest).Holds L sec names at' := by
    intro rest hr hc
    refine ⟨by simpa using hc, s, hsec, fun k hk => ?_⟩
    rw [hr, List.mem_filter] at hk
    refine ⟨by simpa using hk.2, ?_⟩
    obtain ⟨p, hp⟩ := PyDict.mem_keys_iff.1 hk.1
    obtain ⟨l, w, q1, q2, q3⟩ := l3.from' k p hp
    exact ⟨_, q1, w, _, q2, q3⟩
  have key := ((((((h1.orElse h2).and l1).and p1).and p2).and p3).and p4).and (Fits.warn rfl (h5 _ rfl))
  exact key.cast (by rw [Bool.or_false]; rfl)

end

end Magnopy.Txt
