import Verif.Lemmas.CliSound

/-!
# Lemmas about command lines: words that belong to no option
-/

set_option autoImplicit false
set_option linter.unusedSectionVars false

namespace Magnopy
namespace Cli

variable {K : Type} {float : Str → Option K} {P : Parser}

/-- An error, or something was not recognised. -/
def Refused : Except Stop (State K) → Prop
  | .error _ => True
  | .ok s => s.extras = true

theorem Refused.bind {x : Except Stop (State K)} {f : State K → Except Stop (State K)} (h : ∀ s, x = .ok s → Refused (f s)) :
    Refused (x.bind f) := by
  cases x with
  | error e => trivial
  | ok s => exact h s rfl

theorem take_extras {o : Opt} {ws : List Str} {s s' : State K} (h : take float o ws s = .ok s') : s'.extras = s.extras := by
  obtain ⟨v, _, rfl⟩ := map_ok h
  rfl

theorem takeAll_extras {os : List Opt} {s s' : State K} (h : takeAll float os s = .ok s') : s'.extras = s.extras := by
  induction os generalizing s with
  | nil => cases h; rfl
  | cons o os ih =>
    obtain ⟨s1, h1, h2⟩ := bind_ok h
    rw [ih h2, take_extras h1]

theorem takePositional_extras {q : Str × List Str} {ws : List Str} {s s' : State K} (h : takePositional q ws s = .ok s') :
    s'.extras = s.extras := by
  unfold takePositional at h
  split at h
  · cases h; rfl
  · split_ifs at h
    cases h; rfl

theorem refused_of_extras (fuel : ℕ) (ts : List (Str × Tok)) (s : State K) (hs : s.extras = true) : Refused (loop P float fuel ts s) := by
  induction fuel generalizing ts s with
  | zero => unfold loop; exact hs
  | succ fuel ih =>
    match ts with
    | [] => unfold loop; exact hs
    | (w, .opt none name ex) :: rest => rw [loop.eq_def]; exact ih _ _ rfl
    | (w, .opt (some o) name none) :: rest =>
      rw [loop.eq_def]
      simp only
      cases hc : count o.kind rest with
      | error e => trivial
      | ok n => exact Refused.bind fun s' h => ih _ _ ((take_extras h).trans hs)
    | (w, .opt (some o) name (some (sep, v))) :: rest =>
      rw [loop.eq_def]
      simp only
      cases hc : cluster P o name sep v with
      | error e => trivial
      | ok r =>
        obtain ⟨os, r⟩ := r
        match r with
        | none => exact Refused.bind fun s' h => ih _ _ rfl
        | some (o', some v') =>
          refine Refused.bind fun s' h => ih _ _ ?_
          obtain ⟨s1, h1, h2⟩ := bind_ok h
          rw [take_extras h2, takeAll_extras h1, hs]
        | some (o', none) =>
          show Refused ((count o'.kind rest).bind _)
          cases hc : count o'.kind rest with
          | error e => trivial
          | ok n =>
            refine Refused.bind fun s' h => ih _ _ ?_
            obtain ⟨s1, h1, h2⟩ := bind_ok h
            rw [take_extras h2, takeAll_extras h1, hs]
    | (w, .arg) :: rest =>
      rw [loop.eq_def]
      simp only
      split
      · split_ifs
        · exact Refused.bind fun s' h => ih _ _ ((takePositional_extras h).trans hs)
        · exact ih _ _ rfl
      · exact ih _ _ rfl
    | (w, .dashes) :: rest =>
      rw [loop.eq_def]
      simp only
      split
      · split_ifs
        · exact Refused.bind fun s' h => ih _ _ ((takePositional_extras h).trans hs)
        · exact ih _ _ rfl
      · exact ih _ _ rfl

/-- These arguments are refused. -/
def Stuck (P : Parser) (float : Str → Option K) (X : List (Str × Tok)) : Prop :=
  ∀ (fuel : ℕ) (s : State K), X.length ≤ fuel → Refused (loop P float fuel X s)

theorem stuck_arg (hpos : P.pos = none) (w : Str) (t : Tok) (ht : t = .arg ∨ t = .dashes) (rest : List (Str × Tok)) :
    Stuck P float ((w, t) :: rest) := by
  intro fuel s hf
  obtain ⟨f, rfl⟩ := Nat.exists_eq_add_of_le' (Nat.lt_of_lt_of_le (Nat.succ_pos _) hf)
  rcases ht with rfl | rfl
  all_goals
    rw [loop.eq_def]
    simp only [hpos]
    exact refused_of_extras _ _ _ rfl

theorem count_le {k : Kind} {rest : List (Str × Tok)} {n : ℕ} (h : count k rest = .ok n) :
    n ≤ (rest.takeWhile fun e => e.2 = .arg).length := by
  unfold count at h
  simp only at h
  cases k <;> simp only at h
  · injection h with h; omega
  · injection h with h; omega
  · split_ifs at h with hc; injection h with h; omega
  · injection h with h; omega
  · split_ifs at h with hc; injection h with h; omega

/-- Nothing in front of an option helps. -/
theorem Stuck.append (hpos : P.pos = none) {e : Str × Tok} {X : List (Str × Tok)} (he : e.2 ≠ .arg) (h : Stuck P float (e :: X))
    (a : List (Str × Tok)) : Stuck P float (a ++ e :: X) := by
  have main : ∀ (n : ℕ) (a : List (Str × Tok)), a.length ≤ n → Stuck P float (a ++ e :: X) := by
    intro n
    induction n with
    | zero =>
      intro a ha
      rw [List.length_eq_zero_iff.1 (Nat.le_zero.1 ha)]
      exact h
    | succ n ih =>
      intro a ha
      match a with
      | [] => exact h
      | t :: a =>
        simp only [List.length_cons, Nat.add_le_add_iff_right] at ha
        have htw : ((a ++ e :: X).takeWhile fun e => e.2 = .arg).length ≤ a.length := by
          have : ((a ++ e :: X).takeWhile fun e => e.2 = .arg) = a.takeWhile fun e => e.2 = .arg := by
            induction a with
            | nil => simp [he]
            | cons b a iha =>
              simp only [List.cons_append, List.takeWhile_cons]
              rw [iha (by simp only [List.length_cons] at ha; omega)]
          rw [this]
          exact (List.takeWhile_sublist _).length_le
        have hdrop : ∀ {k : Kind} {m : ℕ}, count k (a ++ e :: X) = .ok m → ∀ (f : ℕ) (s : State K), (a ++ e :: X).length ≤ f →
            Refused (loop P float f ((a ++ e :: X).drop m) s) := by
          intro k m hm f s hf
          have hle := (count_le hm).trans htw
          rw [List.drop_append_of_le_length hle]
          refine ih (a.drop m) (by simp; omega) f s ?_
          simp only [List.length_append, List.length_drop] at hf ⊢
          omega
        intro fuel s hf
        simp only [List.cons_append, List.length_cons] at hf
        obtain ⟨f, rfl⟩ := Nat.exists_eq_add_of_le' (Nat.lt_of_lt_of_le (Nat.succ_pos _) hf)
        have hf : (a ++ e :: X).length ≤ f := by omega
        match t with
        | (w, .opt none name ex) =>
          rw [List.cons_append, loop.eq_def]
          exact ih a ha f _ hf
        | (w, .opt (some o) name none) =>
          rw [List.cons_append, loop.eq_def]
          simp only
          cases hc : count o.kind (a ++ e :: X) with
          | error e => trivial
          | ok m => exact Refused.bind fun s' _ => hdrop hc f s' hf
        | (w, .opt (some o) name (some (sep, v))) =>
          rw [List.cons_append, loop.eq_def]
          simp only
          cases hc : cluster P o name sep v with
          | error e => trivial
          | ok r =>
            obtain ⟨os, r⟩ := r
            match r with
            | none => exact Refused.bind fun s' _ => ih a ha f _ hf
            | some (o', some v') => exact Refused.bind fun s' _ => ih a ha f _ hf
            | some (o', none) =>
              show Refused ((count o'.kind (a ++ e :: X)).bind _)
              cases hc : count o'.kind (a ++ e :: X) with
              | error e => trivial
              | ok m => exact Refused.bind fun s' _ => hdrop hc f s' hf
        | (w, .arg) => exact stuck_arg hpos w .arg (.inl rfl) _ _ _ (by simp only [List.length_cons]; omega)
        | (w, .dashes) => exact stuck_arg hpos w .dashes (.inr rfl) _ _ _ (by simp only [List.length_cons]; omega)
  exact main a.length a le_rfl

/-- Too many words behind the name of an option. -/
theorem stuck_name (hpos : P.pos = none) {o : Opt} {w name : Str} {ws : List Str} {b : List (Str × Tok)} {m : ℕ} (hk : o.kind ≠ .many)
    (hm : o.kind.Takes m) (hw : m < ws.length) :
    Stuck P float ((w, .opt (some o) name none) :: ((ws.map fun w => (w, Tok.arg)) ++ b)) := by
  intro fuel s hf
  simp only [List.length_cons] at hf
  obtain ⟨f, rfl⟩ := Nat.exists_eq_add_of_le' (Nat.lt_of_lt_of_le (Nat.succ_pos _) hf)
  rw [loop.eq_def]
  simp only
  cases hc : count o.kind ((ws.map fun w => (w, Tok.arg)) ++ b) with
  | error e => trivial
  | ok n =>
    have hn : n = m := by
      unfold count at hc
      simp only at hc
      cases hkk : o.kind <;> rw [hkk] at hc hm hk
      · exact hm.elim
      · cases hm; injection hc with hc; exact hc.symm
      · cases hm
        simp only at hc
        split_ifs at hc
        injection hc with hc
        exact hc.symm
      · exact absurd rfl hk
      · cases hm
        simp only at hc
        split_ifs at hc
        injection hc with hc
        exact hc.symm
    subst hn
    refine Refused.bind fun s' _ => ?_
    have : ((ws.map fun w => (w, Tok.arg)) ++ b).drop n = (ws[n], Tok.arg) :: (((ws.drop (n + 1)).map fun w => (w, Tok.arg)) ++ b) := by
      rw [List.drop_append_of_le_length (by simp; omega), ← List.map_drop, List.drop_eq_getElem_cons hw]
      rfl
    rw [this]
    refine stuck_arg hpos _ _ (.inl rfl) _ _ _ ?_
    have h2 := congrArg List.length this
    simp only [List.length_drop, List.length_append, List.length_map] at h2 hf ⊢
    simp only [List.length_cons, List.length_append, List.length_map, List.length_drop] at h2 ⊢
    omega

/-- A word behind `name=value`. -/
theorem stuck_eq (hpos : P.pos = none) {o : Opt} {w w' name v : Str} {b : List (Str × Tok)} (hk : o.kind = .one ∨ o.kind = .many) :
    Stuck P float ((w, .opt (some o) name (some (true, v))) :: (w', .arg) :: b) := by
  intro fuel s hf
  simp only [List.length_cons] at hf
  obtain ⟨f, rfl⟩ := Nat.exists_eq_add_of_le' (Nat.lt_of_lt_of_le (Nat.succ_pos _) hf)
  rw [loop.eq_def]
  simp only
  have hcl : cluster P o name true v = .ok ([], some (o, some v)) := by
    rw [cluster.eq_def]
    rcases hk with hk | hk <;> simp [hk]
  rw [hcl]
  exact Refused.bind fun s' _ => stuck_arg hpos _ _ (.inl rfl) _ _ _ (by simp only [List.length_cons]; omega)

/-- What comes after some arguments is classified as without them, unless `--` is among them. -/
theorem classify_append {a b : List Str} {ts : List (Str × Tok)} (h : classify P (a ++ b) = .ok ts) (hd : ['-', '-'] ∉ a) :
    ∃ ta tb, ts = ta ++ tb ∧ classify P b = .ok tb := by
  induction a generalizing ts with
  | nil => exact ⟨[], ts, rfl, h⟩
  | cons w a ih =>
    rw [List.cons_append, classify, if_neg (fun e => hd (by rw [e]; simp))] at h
    split at h
    · cases h
    · obtain ⟨r, hr, rfl⟩ := map_ok h
      obtain ⟨ta, tb, h1, h2⟩ := ih hr fun h => hd (List.mem_cons_of_mem _ h)
      exact ⟨_ :: ta, tb, by rw [h1]; rfl, h2⟩

/-- `--` is refused. -/
theorem classify_dashes {a : List Str} {ts : List (Str × Tok)} (h : classify P a = .ok ts) (hd : ['-', '-'] ∈ a) :
    ∃ ta w tb, ts = ta ++ (w, .dashes) :: tb := by
  induction a generalizing ts with
  | nil => cases hd
  | cons w a ih =>
    rw [classify] at h
    by_cases e : w = ['-', '-']
    · rw [if_pos e] at h
      injection h with h
      exact ⟨[], w, _, h.symm⟩
    · rw [if_neg e] at h
      split at h
      · cases h
      · obtain ⟨r, hr, rfl⟩ := map_ok h
        obtain ⟨ta, w', tb, h1⟩ := ih hr ((List.mem_cons.1 hd).resolve_left fun h => e h.symm)
        exact ⟨_ :: ta, w', tb, by rw [h1]; rfl⟩

theorem parse_refused (hpos : P.pos = none) {argv : List Str}
    (h : ∀ ts, classify P argv = .ok ts → Stuck P float ts) : ∃ e, parseArgs P float argv = .error e := by
  unfold parseArgs
  cases hc : classify P argv with
  | error e => exact ⟨e, rfl⟩
  | ok ts =>
    have := h ts hc ts.length ⟨initial P, [], true, false⟩ le_rfl
    show ∃ e, (loop P float ts.length ts _).bind _ = _
    cases hl : loop P float ts.length ts ⟨initial P, [], true, false⟩ with
    | error e => exact ⟨e, rfl⟩
    | ok s =>
      rw [hl] at this
      have hs : s.extras = true := this
      exact ⟨.usage, by simp [Except.bind, hs]⟩

/-- Arguments are refused if they contain a refused part that starts with an option. -/
theorem parse_stray (hpos : P.pos = none) {a b : List Str}
    (h : ∀ ts, classify P b = .ok ts → ∃ e X, ts = e :: X ∧ e.2 ≠ .arg ∧ Stuck P float ts) :
    ∃ e, parseArgs P float (a ++ b) = .error e := by
  refine parse_refused hpos fun ts hts => ?_
  by_cases hd : ['-', '-'] ∈ a
  · obtain ⟨ta, w, tb, rfl⟩ := classify_dashes hts (List.mem_append_left _ hd)
    exact (stuck_arg hpos w .dashes (.inr rfl) tb).append hpos (by simp) ta
  · obtain ⟨ta, tb, rfl, h2⟩ := classify_append hts hd
    obtain ⟨e, X, rfl, he, hs⟩ := h tb h2
    exact hs.append hpos he ta

theorem stuck_few {o : Opt} {w name : Str} {ws : List Str} {b : List (Str × Tok)} {m : ℕ} (hk : o.kind ≠ .many)
    (hm : o.kind.Takes m) (hw : ws.length < m) (hb : ∀ e ∈ b.head?, e.2 ≠ .arg) :
    Stuck P float ((w, .opt (some o) name none) :: ((ws.map fun w => (w, Tok.arg)) ++ b)) := by
  intro fuel s hf
  simp only [List.length_cons] at hf
  obtain ⟨f, rfl⟩ := Nat.exists_eq_add_of_le' (Nat.lt_of_lt_of_le (Nat.succ_pos _) hf)
  have hn : (((ws.map fun w => (w, Tok.arg)) ++ b).takeWhile fun e => e.2 = .arg).length = ws.length := by
    rw [List.takeWhile_append_of_pos]
    · cases b with
      | nil => simp
      | cons e b => simp [hb e (by simp)]
    · intro e he
      obtain ⟨w, _, rfl⟩ := List.mem_map.1 he
      simp
  have hc : count o.kind ((ws.map fun w => (w, Tok.arg)) ++ b) = .error .usage := by
    unfold count
    simp only
    rw [hn]
    cases hkk : o.kind <;> rw [hkk] at hm hk
    · exact hm.elim
    · cases hm; omega
    · cases hm; simp only; rw [if_neg (by omega)]
    · exact absurd rfl hk
    · cases hm; simp only; rw [if_neg (by omega)]
  rw [loop.eq_def]
  simp only
  rw [hc]
  trivial

theorem mem_split {α : Type} {x : α} {l : List α} (h : x ∈ l) : ∃ a b, l = a ++ x :: b := List.append_of_mem h

theorem head_classify {b : List Str} {tb : List (Str × Tok)} (hP : P.Good) (h : classify P b = .ok tb)
    (hb : ∀ w ∈ b.head?, ∃ o', P.Denotes w o') : ∀ e ∈ tb.head?, e.2 ≠ .arg := by
  cases b with
  | nil => cases h; intro e he; cases he
  | cons w b =>
    obtain ⟨o', ho'⟩ := hb w (by simp)
    obtain ⟨n, hn⟩ := parseOptional_name hP ho'
    rw [classify_cons (Denotes.ne_dashes hP ho') hn] at h
    obtain ⟨r, _, rfl⟩ := map_ok h
    intro e he
    simp only [List.head?_cons, Option.mem_some_iff] at he
    subst he
    simp

/-- All these arguments are refused. -/
theorem parse_refuses (hP : P.Good) (hpos : P.pos = none) {argv : List Str} (h : P.Refuses argv) :
    ∃ e, parseArgs P float argv = .error e := by
  cases h with
  | words a b ws name o m h1 h2 h3 h4 h5 =>
    refine parse_stray hpos fun ts hts => ?_
    obtain ⟨n, hn⟩ := parseOptional_name hP h1
    rw [classify_cons (Denotes.ne_dashes hP h1) hn, classify_plain hP h5] at hts
    obtain ⟨r, hr, rfl⟩ := map_ok hts
    obtain ⟨r', _, rfl⟩ := map_ok hr
    exact ⟨_, _, rfl, by simp, stuck_name hpos h2 h3 h4⟩
  | few a b ws name o m h1 h2 h3 h4 h5 h6 =>
    refine parse_stray hpos fun ts hts => ?_
    obtain ⟨n, hn⟩ := parseOptional_name hP h1
    rw [classify_cons (Denotes.ne_dashes hP h1) hn, classify_plain hP h5] at hts
    obtain ⟨r, hr, rfl⟩ := map_ok hts
    obtain ⟨r', hr', rfl⟩ := map_ok hr
    exact ⟨_, _, rfl, by simp, stuck_few h2 h3 h4 (head_classify hP hr' h6)⟩
  | eq a b name v w o h1 h2 h3 =>
    refine parse_stray hpos fun ts hts => ?_
    obtain ⟨n, hn⟩ := parseOptional_eq hP h1 v
    obtain ⟨h4, h5⟩ := parseOptional_plain hP h3
    rw [classify_cons ?_ hn, classify_cons h4 h5] at hts
    · obtain ⟨r, hr, rfl⟩ := map_ok hts
      obtain ⟨r', _, rfl⟩ := map_ok hr
      exact ⟨_, _, rfl, by simp, stuck_eq hpos h2⟩
    · intro h
      have : '=' ∈ (['-', '-'] : Str) := by rw [← h]; simp
      revert this
      decide
  | first w b h1 =>
    refine parse_refused hpos fun ts hts => ?_
    obtain ⟨h4, h5⟩ := parseOptional_plain hP h1
    rw [classify_cons h4 h5] at hts
    obtain ⟨r, hr, rfl⟩ := map_ok hts
    exact stuck_arg hpos _ _ (.inl rfl) _
  | dashes l h1 =>
    refine parse_refused hpos fun ts hts => ?_
    obtain ⟨ta, w, tb, rfl⟩ := classify_dashes hts h1
    exact (stuck_arg hpos w .dashes (.inr rfl) tb).append hpos (by simp) ta
  | ambiguous l name o o' h1 h2 h3 h4 h5 h6 h7 h8 h9 =>
    obtain ⟨a, b, rfl⟩ := mem_split h1
    refine parse_stray hpos fun ts hts => ?_
    obtain ⟨c, t, hname⟩ := h2
    have hg : P.table.get? name = none := by
      cases hg : P.table.get? name with
      | none => rfl
      | some x => exact absurd (of_get? hg).2 (h9 x (of_get? hg).1)
    have hm : ∀ x ∈ P.opts, name <+: x.long → (x, x.long, (none : Option (Bool × Str))) ∈ optionTuples P name := by
      intro x hx hp
      subst hname
      unfold optionTuples
      simp only [splitEq_none h3]
      refine List.mem_map.2 ⟨(x.long, x), List.mem_filter.2 ⟨mem_table.2 ⟨hx, by simp [Opt.names]⟩, ?_⟩, rfl⟩
      simpa [Str.startsWith, List.isPrefixOf_iff_prefix] using hp
    have h10 := hm o h4 h7
    have h11 := hm o' h5 h8
    have hpo : parseOptional P name = .error .usage := by
      generalize hL : optionTuples P name = L at h10 h11
      subst hname
      unfold parseOptional
      simp only [ne_eq, not_true_eq_false, if_false, hg, splitEq_none h3, Option.bind_none, List.length_cons, Nat.add_eq_right,
        Nat.add_eq_zero_iff, one_ne_zero, and_false, hL]
      match L, h10, h11 with
      | [x], h10, h11 =>
        rw [List.mem_singleton] at h10 h11
        have := h10.trans h11.symm
        simp only [Prod.mk.injEq] at this
        exact absurd this.2.1 h6
      | _ :: _ :: _, _, _ => rfl
    rw [classify, if_neg (by rw [hname]; simp), hpo] at hts
    cases hts
  | unknown l w c t h1 hw h2 h3 h4 h5 h6 =>
    obtain ⟨a, b, rfl⟩ := mem_split h1
    refine parse_stray hpos fun ts hts => ?_
    by_cases hdd : w = ['-', '-']
    · obtain ⟨ta, w', tb, rfl⟩ := classify_dashes hts (by rw [hdd]; simp)
      cases ta with
      | nil => exact ⟨_, _, rfl, by simp, stuck_arg hpos w' .dashes (.inr rfl) tb⟩
      | cons x ta =>
        rw [classify, if_pos hdd] at hts
        injection hts with hts
        simp only [List.cons_append, List.cons.injEq] at hts
        refine ⟨_, _, rfl, ?_, ?_⟩
        · rw [← hts.1]; simp
        · exact (stuck_arg hpos w' .dashes (.inr rfl) tb).append hpos (by simp) (x :: ta)
    have hg : P.table.get? w = none := by
      cases hg : P.table.get? w with
      | none => rfl
      | some x => exact absurd List.prefix_rfl (h6 x (of_get? hg).1 w (of_get? hg).2).1
    have hneg : negative w = false := by
      subst hw
      unfold negative
      simp only [List.dropWhile_cons, h3, Bool.false_eq_true, if_false]
    have hopt : optionTuples P w = [] := by
      subst hw
      unfold optionTuples
      split
      · rename_i heq
        simp only [List.cons.injEq, true_and] at heq
        obtain ⟨rfl, rfl⟩ := heq
        simp only [splitEq_none h4, List.map_eq_nil_iff, List.filter_eq_nil_iff]
        intro e he
        have := (h6 e.2 (mem_table.1 he).1 e.1 (mem_table.1 he).2).2
        simpa [Str.startsWith, List.isPrefixOf_iff_prefix] using this
      · rename_i heq
        simp only [List.cons.injEq, true_and] at heq
        obtain ⟨rfl, rfl⟩ := heq
        rw [List.filterMap_eq_nil_iff]
        intro e he
        obtain ⟨h7, h8⟩ := h6 e.2 (mem_table.1 he).1 e.1 (mem_table.1 he).2
        rw [if_neg, if_neg]
        · simpa [Str.startsWith, List.isPrefixOf_iff_prefix] using h8
        · intro h
          exact h7 (by rw [h]; exact ⟨t, rfl⟩)
      · rfl
    have hpo : parseOptional P w = .ok (.opt none w none) := by
      subst hw
      unfold parseOptional
      simp only [ne_eq, not_true_eq_false, if_false, hg, splitEq_none h4, Option.bind_none, List.length_cons, Nat.add_eq_right,
        Nat.add_eq_zero_iff, one_ne_zero, and_false, hopt, hneg, Bool.false_eq_true, h5]
    rw [classify_cons hdd hpo] at hts
    obtain ⟨r, hr, rfl⟩ := map_ok hts
    refine ⟨_, _, rfl, by simp, fun fuel s hf => ?_⟩
    simp only [List.length_cons] at hf
    obtain ⟨f, rfl⟩ := Nat.exists_eq_add_of_le' (Nat.lt_of_lt_of_le (Nat.succ_pos _) hf)
    rw [loop.eq_def]
    exact refused_of_extras _ _ _ rfl

end Cli
end Magnopy
