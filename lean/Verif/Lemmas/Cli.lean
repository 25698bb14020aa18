import Mathlib.Data.List.Basic
import Mathlib.Data.List.Nodup
import Mathlib.Data.List.TakeWhile
import Mathlib.Tactic.Common
import Verif.Spec.Cli

/-!
# Lemmas about command lines
-/

set_option autoImplicit false
set_option linter.unusedSectionVars false

namespace Magnopy
namespace Cli

variable {K : Type} {P : Parser} {float : Str → Option K}

theorem keys_table (P : Parser) : P.table.keys = P.opts.flatMap Opt.names := by
  unfold Parser.table PyDict.keys
  rw [List.map_flatMap]
  rfl

theorem mem_table {n : Str} {o : Opt} : (n, o) ∈ P.table ↔ o ∈ P.opts ∧ n ∈ o.names := by
  unfold Parser.table
  simp only [List.mem_flatMap, List.mem_map, Prod.mk.injEq]
  constructor
  · rintro ⟨o', h, n', h', rfl, rfl⟩; exact ⟨h, h'⟩
  · rintro ⟨h, h'⟩; exact ⟨o, h, n, h', rfl, rfl⟩

theorem get?_table (hP : P.Good) {n : Str} {o : Opt} (ho : o ∈ P.opts) (hn : n ∈ o.names) : P.table.get? n = some o :=
  PyDict.get?_of_mem (by rw [keys_table]; exact hP.keys) (mem_table.2 ⟨ho, hn⟩)

theorem of_get? {n : Str} {o : Opt} (h : P.table.get? n = some o) : o ∈ P.opts ∧ n ∈ o.names := mem_table.1 (PyDict.mem_of_get? h)

/-- A name starts with a dash and a second character which is neither a digit nor a point. -/
theorem Parser.Good.name (hP : P.Good) {n : Str} {o : Opt} (ho : o ∈ P.opts) (hn : n ∈ o.names) :
    ∃ c l, n = '-' :: c :: l ∧ c ≠ '.' ∧ c.isDigit = false ∧ (c = '-' → l ≠ []) := by
  simp only [Opt.names, List.mem_cons, List.not_mem_nil, or_false] at hn
  rcases hn with rfl | rfl
  · obtain ⟨c, l, h, h1, h2, h3⟩ := hP.short o ho
    exact ⟨c, l, h, h2, h3, fun e => absurd e h1⟩
  · obtain ⟨c, l, h⟩ := hP.long o ho
    exact ⟨'-', c :: l, h, by decide, by decide, fun _ => by simp⟩

theorem splitEq_none {s : Str} (h : '=' ∉ s) : splitEq s = none := by
  unfold splitEq
  have : s.dropWhile (· != '=') = [] := by
    rw [List.dropWhile_eq_nil_iff]
    intro c hc
    simpa using fun e : c = '=' => h (e ▸ hc)
  rw [this]

theorem splitEq_append {s w : Str} (h : '=' ∉ s) : splitEq (s ++ '=' :: w) = some (s, w) := by
  have hd : (s ++ '=' :: w).dropWhile (· != '=') = '=' :: w := by
    rw [List.dropWhile_append_of_pos (fun c hc => by simpa using fun e : c = '=' => h (e ▸ hc))]
    rfl
  have ht : (s ++ '=' :: w).takeWhile (· != '=') = s := by
    rw [List.takeWhile_append_of_pos (fun c hc => by simpa using fun e : c = '=' => h (e ▸ hc))]
    simp
  unfold splitEq
  rw [hd, ht]

theorem get?_eq_none (hP : P.Good) {s : Str} (h : '=' ∈ s) : P.table.get? s = none := by
  cases e : P.table.get? s with
  | none => rfl
  | some o => exact absurd h (hP.eq o (of_get? e).1 s (of_get? e).2)

theorem filter_key {α β : Type} [DecidableEq α] {d : PyDict α β} (hd : d.keys.Nodup) {k : α} {v : β} (h : (k, v) ∈ d)
    (p : α × β → Bool) (hp : ∀ e ∈ d, p e = true ↔ e.1 = k) : d.filter p = [(k, v)] := by
  induction d with
  | nil => cases h
  | cons a d ih =>
    have hd' : a.1 ∉ PyDict.keys d ∧ (PyDict.keys d).Nodup := List.nodup_cons.1 hd
    rcases List.mem_cons.1 h with h1 | h1
    · have ha : p a = true := (hp a (List.mem_cons_self ..)).2 (by rw [← h1])
      rw [List.filter_cons_of_pos ha, ← h1]
      congr 1
      rw [List.filter_eq_nil_iff]
      intro e he hpe
      have := (hp e (List.mem_cons_of_mem _ he)).1 hpe
      apply hd'.1
      rw [← h1]
      show k ∈ _
      rw [← this]
      exact List.mem_map.2 ⟨e, he, rfl⟩
    · have ha : ¬ p a = true := fun hpa => by
        have := (hp a (List.mem_cons_self ..)).1 hpa
        exact hd'.1 (this ▸ List.mem_map.2 ⟨(k, v), h1, rfl⟩)
      rw [List.filter_cons_of_neg ha]
      exact ih hd'.2 h1 fun e he => hp e (List.mem_cons_of_mem _ he)

/-- The abbreviations of a long name. -/
theorem filter_abbrev (hP : P.Good) {name : Str} {o : Opt} (ho : o ∈ P.opts)
    (hu : ∀ o' ∈ P.opts, ∀ n ∈ o'.names, (name <+: n ↔ n = o.long)) :
    (P.table.filter fun e => e.1.startsWith name) = [(o.long, o)] := by
  refine filter_key (by rw [keys_table]; exact hP.keys) (mem_table.2 ⟨ho, by simp [Opt.names]⟩) _ ?_
  rintro ⟨n, o'⟩ he
  obtain ⟨h1, h2⟩ := mem_table.1 he
  rw [← hu o' h1 n h2]
  simp [Str.startsWith, List.isPrefixOf_iff_prefix]

/-- An option by its name. -/
theorem parseOptional_name (hP : P.Good) {name : Str} {o : Opt} (h : P.Denotes name o) :
    ∃ n, parseOptional P name = .ok (.opt (some o) n none) := by
  obtain ⟨ho, h | ⟨⟨c, l, hname⟩, heq, hu⟩⟩ := h
  · obtain ⟨c, l, rfl, _⟩ := hP.name ho h
    refine ⟨'-' :: c :: l, ?_⟩
    unfold parseOptional
    simp only [ne_eq, not_true_eq_false, if_false, get?_table hP ho h]
  · cases hg : P.table.get? name with
    | some o' =>
      have e : name = o.long := (hu o' (of_get? hg).1 name (of_get? hg).2).1 List.prefix_rfl
      have : P.table.get? name = some o := get?_table hP ho (by simp [Opt.names, e])
      refine ⟨name, ?_⟩
      subst hname
      unfold parseOptional
      simp only [ne_eq, not_true_eq_false, if_false, this]
    | none =>
      refine ⟨o.long, ?_⟩
      have hf := filter_abbrev hP ho hu
      subst hname
      unfold parseOptional optionTuples
      simp only [ne_eq, not_true_eq_false, if_false, hg, splitEq_none heq, hf, Option.bind_none, List.map_cons, List.map_nil,
        List.length_cons, Nat.add_eq_right, Nat.add_eq_zero_iff, one_ne_zero, and_false, if_false]

/-- An option by its name, with a value behind `=`. -/
theorem parseOptional_eq (hP : P.Good) {name : Str} {o : Opt} (h : P.Denotes name o) (w : Str) :
    ∃ n, parseOptional P (name ++ '=' :: w) = .ok (.opt (some o) n (some (true, w))) := by
  have hg := get?_eq_none hP (s := name ++ '=' :: w) (by simp)
  obtain ⟨ho, h | ⟨⟨c, l, hname⟩, heq, hu⟩⟩ := h
  · have hs := splitEq_append (w := w) (hP.eq o ho name h)
    have ht := get?_table hP ho h
    obtain ⟨c, l, rfl, _⟩ := hP.name ho h
    refine ⟨'-' :: c :: l, ?_⟩
    simp only [List.cons_append] at hg hs ⊢
    unfold parseOptional
    simp only [ne_eq, not_true_eq_false, if_false, hg, hs, ht, Option.bind_some, Option.map_some, List.length_cons,
      Nat.add_eq_right, Nat.add_eq_zero_iff, one_ne_zero, and_false, if_false]
  · have hs := splitEq_append (w := w) heq
    have hf := filter_abbrev hP ho hu
    cases hn : P.table.get? name with
    | some o' =>
      have e : name = o.long := (hu o' (of_get? hn).1 name (of_get? hn).2).1 List.prefix_rfl
      have ht : P.table.get? name = some o := get?_table hP ho (by simp [Opt.names, e])
      refine ⟨name, ?_⟩
      subst hname
      simp only [List.cons_append] at hg hs ⊢
      unfold parseOptional
      simp only [ne_eq, not_true_eq_false, if_false, hg, hs, ht, Option.bind_some, Option.map_some, List.length_cons,
        Nat.add_eq_right, Nat.add_eq_zero_iff, one_ne_zero, and_false, if_false]
    | none =>
      refine ⟨o.long, ?_⟩
      subst hname
      simp only [List.cons_append] at hg hs ⊢
      unfold parseOptional optionTuples
      simp only [ne_eq, not_true_eq_false, if_false, hg, hs, hn, hf, Option.bind_some, Option.map_none, List.map_cons, List.map_nil,
        List.length_cons, Nat.add_eq_right, Nat.add_eq_zero_iff, one_ne_zero, and_false, if_false]

theorem negative_of {w : Str} (h : Negative w) : negative w = true := by
  rcases h with ⟨a, ha, hd, rfl⟩ | ⟨a, b, hb, ha, hd, rfl⟩
  · have : a.dropWhile Char.isDigit = [] := List.dropWhile_eq_nil_iff.2 hd
    simp [negative, this, ha]
  · have : (a ++ '.' :: b).dropWhile Char.isDigit = '.' :: b := by
      rw [List.dropWhile_append_of_pos ha]
      rfl
    simp only [negative, this]
    simpa [hb] using hd

theorem Negative.shape {w : Str} (h : Negative w) : ∃ c l, w = '-' :: c :: l ∧ (c = '.' ∨ c.isDigit = true) ∧ '=' ∉ w := by
  have hne : ∀ a : Str, (∀ c ∈ a, c.isDigit = true) → '=' ∉ a := fun a ha h => absurd (ha _ h) (by decide)
  rcases h with ⟨a, ha, hd, rfl⟩ | ⟨a, b, hb, ha, hd, rfl⟩
  · obtain ⟨c, l, rfl⟩ := List.exists_cons_of_ne_nil ha
    refine ⟨c, l, rfl, .inr (hd c (by simp)), ?_⟩
    have := hne _ hd
    simp only [List.mem_cons, not_or] at this ⊢
    exact ⟨by decide, this⟩
  · have h1 := hne _ ha
    have h2 := hne _ hd
    cases a with
    | nil => exact ⟨'.', b, rfl, .inl rfl, by simpa using h2⟩
    | cons c a =>
      refine ⟨c, a ++ '.' :: b, rfl, .inr (ha c (by simp)), ?_⟩
      simp only [List.mem_cons, not_or] at h1
      simp [h1, h2]

/-- A value. -/
theorem parseOptional_plain (hP : P.Good) {w : Str} (h : Plain w) : w ≠ ['-', '-'] ∧ parseOptional P w = .ok .arg := by
  rcases h with h | rfl | h
  · cases w with
    | nil => exact ⟨by simp, rfl⟩
    | cons c l =>
      have hc : c ≠ '-' := fun e => h (by simp [e])
      refine ⟨fun e => hc (by injection e), ?_⟩
      unfold parseOptional
      simp only [ne_eq, hc, not_false_eq_true, if_true]
  · refine ⟨by simp, ?_⟩
    have : P.table.get? ['-'] = none := by
      cases e : P.table.get? ['-'] with
      | none => rfl
      | some o =>
        obtain ⟨c, l, h, _⟩ := hP.name (of_get? e).1 (of_get? e).2
        simp at h
    unfold parseOptional
    simp [this]
  · have hn := negative_of h
    obtain ⟨c, l, rfl, hc, heq⟩ := h.shape
    have hc' : c ≠ '-' := by rintro rfl; revert hc; decide
    have hnone : ∀ e ∈ P.table, ∀ l' : Str, e.1 ≠ '-' :: c :: l' := by
      rintro ⟨n, o⟩ he l' rfl
      obtain ⟨h1, h2⟩ := mem_table.1 he
      obtain ⟨c', l'', h3, h4, h5, _⟩ := hP.name h1 h2
      simp only [List.cons.injEq, true_and] at h3
      obtain ⟨rfl, _⟩ := h3
      rcases hc with hc | hc
      · exact h4 hc
      · rw [hc] at h5; cases h5
    refine ⟨by simp [hc'], ?_⟩
    have hg : P.table.get? ('-' :: c :: l) = none := by
      cases e : P.table.get? ('-' :: c :: l) with
      | none => rfl
      | some o => exact absurd rfl (hnone _ (PyDict.mem_of_get? e) l)
    have ht : optionTuples P ('-' :: c :: l) = [] := by
      unfold optionTuples
      split
      · rename_i h'
        simp only [List.cons.injEq, true_and] at h'
        exact absurd h'.1 hc'
      · rename_i c' v _ h'
        simp only [List.cons.injEq, true_and] at h'
        obtain ⟨rfl, rfl⟩ := h'
        rw [List.filterMap_eq_nil_iff]
        intro e he
        rw [if_neg (hnone e he []), if_neg]
        intro hp
        obtain ⟨t, ht⟩ := List.isPrefixOf_iff_prefix.1 hp
        exact hnone e he _ ht.symm
      · rfl
    unfold parseOptional
    simp only [ne_eq, not_true_eq_false, if_false, hg, splitEq_none heq, ht, hn, Option.bind_none, if_true, List.length_cons,
      Nat.add_eq_right, Nat.add_eq_zero_iff, one_ne_zero, and_false, if_false]

/-! ### Command lines made of settings -/

/-- The tokens of a setting. -/
inductive Toks (x : Setting) : List (Str × Tok) → Prop
  | eq (w : Str) (he : x.eq = true) (hw : x.words = [w]) (s n : Str) : Toks x [(s, .opt (some x.opt) n (some (true, w)))]
  | sep (he : x.eq = false) (s n : Str) : Toks x ((s, .opt (some x.opt) n none) :: x.words.map fun w => (w, .arg))

theorem Denotes.ne_dashes (hP : P.Good) {name : Str} {o : Opt} (h : P.Denotes name o) : name ≠ ['-', '-'] := by
  rintro rfl
  obtain ⟨ho, h | ⟨⟨c, l, h⟩, _⟩⟩ := h
  · obtain ⟨c, l, h, _, _, h'⟩ := hP.name ho h
    simp only [List.cons.injEq, true_and] at h
    exact h' h.1.symm h.2.symm
  · simp at h

theorem classify_cons {w : Str} {t : Tok} {l : List Str} (hw : w ≠ ['-', '-']) (h : parseOptional P w = .ok t) :
    classify P (w :: l) = (classify P l).map fun r => (w, t) :: r := by
  rw [classify, if_neg hw, h]

theorem classify_plain (hP : P.Good) {ws : List Str} (hw : ∀ w ∈ ws, Plain w) (l : List Str) :
    classify P (ws ++ l) = (classify P l).map fun r => ws.map (fun w => (w, .arg)) ++ r := by
  induction ws with
  | nil => cases h : classify P l <;> simp [h, Except.map]
  | cons w ws ih =>
    obtain ⟨h1, h2⟩ := parseOptional_plain hP (hw w (by simp))
    rw [List.cons_append, classify_cons h1 h2, ih fun w h => hw w (List.mem_cons_of_mem _ h)]
    cases classify P l <;> rfl

/-- The tokens of the arguments of a setting. -/
theorem classify_setting (hP : P.Good) {x : Setting} (hx : x.Legal P float) (l : List Str) :
    ∃ ts, Toks x ts ∧ classify P (x.render ++ l) = (classify P l).map fun r => ts ++ r := by
  unfold Setting.render
  by_cases he : x.eq = true
  · obtain ⟨_, hl⟩ := hx.eq he
    obtain ⟨w, hw⟩ := List.length_eq_one_iff.1 hl
    obtain ⟨n, hn⟩ := parseOptional_eq hP hx.denotes w
    refine ⟨_, .eq w he hw (x.name ++ '=' :: w) n, ?_⟩
    rw [if_pos he, hw, List.map_singleton, List.singleton_append, classify_cons ?_ hn]
    · rfl
    · intro h
      have : '=' ∈ (['-', '-'] : Str) := by rw [← h]; simp
      revert this
      decide
  · have he' : x.eq = false := by simpa using he
    obtain ⟨n, hn⟩ := parseOptional_name hP hx.denotes
    refine ⟨_, .sep he' x.name n, ?_⟩
    rw [if_neg he, List.cons_append, classify_cons (Denotes.ne_dashes hP hx.denotes) hn, classify_plain hP (hx.plain he')]
    cases classify P l <;> rfl

/-- The tokens of a list of settings. -/
inductive AllToks : List Setting → List (Str × Tok) → Prop
  | nil : AllToks [] []
  | cons {x : Setting} {xs : List Setting} {t ts : List (Str × Tok)} : Toks x t → AllToks xs ts → AllToks (x :: xs) (t ++ ts)

theorem classify_settings (hP : P.Good) {l : List Setting} (hl : ∀ x ∈ l, x.Legal P float) :
    ∃ ts, AllToks l ts ∧ classify P (l.flatMap Setting.render) = .ok ts := by
  induction l with
  | nil => exact ⟨[], .nil, rfl⟩
  | cons x l ih =>
    obtain ⟨ts, h1, h2⟩ := ih fun y hy => hl y (List.mem_cons_of_mem _ hy)
    obtain ⟨t, h3, h4⟩ := classify_setting hP (hl x (by simp)) (l.flatMap Setting.render)
    exact ⟨t ++ ts, .cons h3 h1, by rw [List.flatMap_cons, h4, h2]; rfl⟩

/-- The first token of settings is no value. -/
theorem AllToks.head {l : List Setting} {ts : List (Str × Tok)} (h : AllToks l ts) :
    (ts.takeWhile fun e => e.2 = .arg) = [] := by
  cases h with
  | nil => rfl
  | cons h1 _ => cases h1 <;> rfl

theorem checked_iff {c : Option (List Str)} {w : Str} : checked c w = true ↔ ∀ l, c = some l → w ∈ l := by
  cases c with
  | none => simp [checked]
  | some l => simp [checked, Str.mem]

theorem mapM_isSome {α β : Type} {f : α → Option β} {l : List α} (h : ∀ a ∈ l, (f a).isSome) : ∃ r, l.mapM f = some r := by
  induction l with
  | nil => exact ⟨[], rfl⟩
  | cons a l ih =>
    obtain ⟨b, hb⟩ := Option.isSome_iff_exists.1 (h a (by simp))
    obtain ⟨r, hr⟩ := ih fun x hx => h x (List.mem_cons_of_mem _ hx)
    exact ⟨b :: r, by simp [List.mapM_cons, hb, hr]⟩

/-- The value of a setting is what `_get_values` returns. -/
theorem Setting.Legal.getValues {x : Setting} (hx : x.Legal P float) :
    ∃ v, x.value float = some v ∧ Cli.getValues float x.opt x.words = .ok v := by
  have ht := hx.takes
  have hc : ∀ w ∈ x.words, checked x.opt.choices w = true := fun w hw => checked_iff.2 fun c h => hx.choices c h w hw
  unfold Setting.value Cli.getValues
  cases hk : x.opt.kind with
  | help => rw [hk] at ht; exact ht.elim
  | flag => exact ⟨_, rfl, rfl⟩
  | one =>
    rw [hk] at ht
    obtain ⟨w, hw⟩ := List.length_eq_one_iff.1 ht
    rw [hw] at hc ⊢
    exact ⟨.str w, rfl, by simp [hc w (by simp)]⟩
  | many => exact ⟨_, rfl, by simp [List.all_eq_true.2 hc]⟩
  | three =>
    obtain ⟨r, hr⟩ := mapM_isSome (hx.numbers hk)
    exact ⟨.nums r, by simp [hr], by simp [hr]⟩

/-- The state after a setting. -/
def Setting.apply (float : Str → Option K) (s : State K) (x : Setting) : State K :=
  match x.value float with
  | some v => { s with vals := s.vals.set x.opt.dest v, seen := x.opt.dest :: s.seen }
  | none => s

theorem Setting.Legal.take {x : Setting} (hx : x.Legal P float) (s : State K) :
    Cli.take float x.opt x.words s = .ok (x.apply float s) := by
  obtain ⟨v, h1, h2⟩ := hx.getValues
  unfold Cli.take Setting.apply
  rw [h2, h1]
  rfl

theorem loop_settings {l : List Setting} (hl : ∀ x ∈ l, x.Legal P float) {ts : List (Str × Tok)} (ht : AllToks l ts) {fuel : ℕ}
    (hf : ts.length ≤ fuel) (s : State K) : loop P float fuel ts s = .ok (l.foldl (Setting.apply float) s) := by
  induction ht generalizing fuel s with
  | nil => cases fuel <;> rfl
  | @cons x xs t ts h1 h2 ih =>
    have hx := hl x (by simp)
    have ih := fun {f : ℕ} (hf : ts.length ≤ f) => @ih (fun y hy => hl y (List.mem_cons_of_mem _ hy)) f hf
    cases h1 with
    | eq w he hw a n =>
      simp only [List.cons_append, List.nil_append, List.length_cons] at hf ⊢
      obtain ⟨f, rfl⟩ := Nat.exists_eq_add_of_le' (Nat.lt_of_lt_of_le (Nat.succ_pos _) hf)
      rw [loop]
      have hcl : cluster P x.opt n true w = .ok ([], some (x.opt, some w)) := by
        rw [cluster.eq_def]
        rcases (hx.eq he).1 with hk | hk <;> simp [hk]
      simp only [hcl]
      show ((takeAll float [] s).bind (Cli.take float x.opt [w])).bind (loop P float f ts) = _
      have htk := hx.take s
      rw [hw] at htk
      show (Cli.take float x.opt [w] s).bind (loop P float f ts) = _
      rw [htk]
      exact ih (by omega) _
    | sep he a n =>
      simp only [List.cons_append, List.length_cons, List.length_append, List.length_map] at hf ⊢
      obtain ⟨f, rfl⟩ := Nat.exists_eq_add_of_le' (Nat.lt_of_lt_of_le (Nat.succ_pos _) hf)
      rw [loop]
      have hn : ((x.words.map fun w => (w, Tok.arg)) ++ ts).takeWhile (fun e => e.2 = .arg) =
          x.words.map fun w => (w, Tok.arg) := by
        rw [List.takeWhile_append_of_pos, h2.head, List.append_nil]
        intro e he
        obtain ⟨w, _, rfl⟩ := List.mem_map.1 he
        simp
      have hcount : count x.opt.kind ((x.words.map fun w => (w, Tok.arg)) ++ ts) = .ok x.words.length := by
        have ht := hx.takes
        unfold count
        rw [hn, List.length_map]
        cases hk : x.opt.kind with
        | help => rw [hk] at ht; exact ht.elim
        | flag => rw [hk] at ht; rw [show x.words.length = 0 from ht]
        | one => rw [hk] at ht; rw [show x.words.length = 1 from ht]; rfl
        | many => rfl
        | three => rw [hk] at ht; rw [show x.words.length = 3 from ht]; rfl
      simp only [hcount]
      show (Cli.take float x.opt ((((x.words.map fun w => (w, Tok.arg)) ++ ts).take x.words.length).map Prod.fst) s).bind
        (fun s => loop P float f (((x.words.map fun w => (w, Tok.arg)) ++ ts).drop x.words.length) s) = _
      have h3 : ((x.words.map fun w => (w, Tok.arg)) ++ ts).take x.words.length = x.words.map fun w => (w, Tok.arg) := by
        rw [List.take_append_of_le_length (by simp), List.take_of_length_le (by simp)]
      have h4 : ((x.words.map fun w => (w, Tok.arg)) ++ ts).drop x.words.length = ts := by
        rw [List.drop_append_of_le_length (by simp), List.drop_of_length_le (by simp), List.nil_append]
      rw [h3, h4, List.map_map]
      have : (x.words.map (Prod.fst ∘ fun w => (w, Tok.arg))) = x.words := List.map_id _
      rw [this, hx.take s]
      exact ih (by omega) _

theorem foldl_apply {l : List Setting} (hl : ∀ x ∈ l, x.Legal P float) (s : State K) :
    (l.foldl (Setting.apply float) s).extras = s.extras ∧
    (∀ d, d ∈ (l.foldl (Setting.apply float) s).seen ↔ d ∈ s.seen ∨ ∃ x ∈ l, x.opt.dest = d) ∧
    ((∀ x ∈ l, x.opt.dest ∈ s.vals.keys) → (l.foldl (Setting.apply float) s).vals.keys = s.vals.keys) ∧
    ∀ d, (l.foldl (Setting.apply float) s).vals.get? d =
      match (l.reverse.find? fun x => x.opt.dest = d).bind (Setting.value float) with
      | some v => some v
      | none => s.vals.get? d := by
  induction l using List.reverseRecOn with
  | nil => simp
  | append_singleton l x ih =>
    obtain ⟨h1, h2, h3, h4⟩ := ih fun y hy => hl y (List.mem_append_left _ hy)
    obtain ⟨v, hv, _⟩ := (hl x (by simp)).getValues
    rw [List.foldl_append]
    simp only [List.foldl_cons, List.foldl_nil]
    rw [show ∀ s : State K, Setting.apply float s x =
      { s with vals := s.vals.set x.opt.dest v, seen := x.opt.dest :: s.seen } from fun s => by unfold Setting.apply; rw [hv]]
    refine ⟨h1, fun d => ?_, fun hk => ?_, fun d => ?_⟩
    · simp only [List.mem_cons, h2, List.mem_append, List.not_mem_nil, or_false]
      constructor
      · rintro (rfl | h | ⟨y, hy, rfl⟩)
        · exact .inr ⟨x, .inr rfl, rfl⟩
        · exact .inl h
        · exact .inr ⟨y, .inl hy, rfl⟩
      · rintro (h | ⟨y, hy | rfl, rfl⟩)
        · exact .inr (.inl h)
        · exact .inr (.inr ⟨y, hy, rfl⟩)
        · exact .inl rfl
    · have h3 := h3 fun y hy => hk y (List.mem_append_left _ hy)
      simp only
      rw [PyDict.keys_set_of_mem (by rw [h3]; exact hk x (by simp)), h3]
    · simp only [List.reverse_append, List.reverse_cons, List.reverse_nil, List.nil_append, List.singleton_append]
      rw [PyDict.get?_set, h4, List.find?_cons]
      by_cases hd : x.opt.dest = d
      · simp [hd, hv]
      · have hd' : ¬ d = x.opt.dest := fun e => hd e.symm
        simp [hd, hd']

theorem get?_initial (hP : P.Good) (hpos : P.pos = none) {o : Opt} (ho : o ∈ P.opts) (hk : o.kind ≠ .help) :
    (initial P : PyDict Str (Value K)).get? o.dest = some o.default.value := by
  unfold initial
  rw [hpos]
  simp only [List.append_nil]
  refine PyDict.get?_of_mem ?_ (List.mem_map.2 ⟨o, List.mem_filter.2 ⟨ho, by simpa using hk⟩, rfl⟩)
  show (((P.opts.filter fun o => o.kind ≠ .help).map fun o => (o.dest, (o.default.value : Value K))).map Prod.fst).Nodup
  rw [List.map_map]
  exact (hP.dests.sublist ((List.filter_sublist).map _))

theorem keys_initial (hpos : P.pos = none) :
    (initial P : PyDict Str (Value K)).keys = (P.opts.filter fun o => o.kind ≠ .help).map Opt.dest := by
  unfold initial PyDict.keys
  rw [hpos]
  simp only [List.append_nil, List.map_map]
  rfl

theorem find_dest (hP : P.Good) {o : Opt} (ho : o ∈ P.opts) : (P.opts.find? fun o' => o'.dest = o.dest) = some o := by
  cases h : P.opts.find? fun o' => o'.dest = o.dest with
  | none => exact absurd (List.find?_eq_none.1 h o ho) (by simp)
  | some o' =>
    have h1 := List.mem_of_find?_eq_some h
    have h2 := List.find?_some h
    simp only [decide_eq_true_eq] at h2
    rw [List.inj_on_of_nodup_map hP.dests h1 ho h2]

/-- Settings give every attribute its meaning. -/
theorem parse_settings (hP : P.Good) (hpos : P.pos = none) {l : List Setting} (hl : ∀ x ∈ l, x.Legal P float)
    (hr : ∀ o ∈ P.opts, o.required = true → ∃ x ∈ l, x.opt = o) :
    ∃ d, parseArgs P float (l.flatMap Setting.render) = .ok d ∧
      d.keys = (P.opts.filter fun o => o.kind ≠ .help).map Opt.dest ∧
      ∀ o ∈ P.opts, o.kind ≠ .help → d.get? o.dest = some (P.meaning float l o.dest) := by
  obtain ⟨ts, h1, h2⟩ := classify_settings hP hl
  obtain ⟨h3, h4, h5, h6⟩ := foldl_apply hl (⟨initial P, [], true, false⟩ : State K)
  have hnh : ∀ x ∈ l, x.opt.kind ≠ .help := fun x hx hk => by
    have := (hl x hx).takes
    rw [hk] at this
    exact this
  refine ⟨(l.foldl (Setting.apply float) ⟨initial P, [], true, false⟩).vals, ?_, ?_, ?_⟩
  · unfold parseArgs
    rw [h2]
    show (loop P float ts.length ts _).bind _ = _
    rw [loop_settings hl h1 le_rfl]
    show (if _ then _ else _) = _
    rw [if_pos]
    rw [h3]
    simp only [Bool.not_false, Bool.and_true, List.all_eq_true, List.mem_filter, decide_eq_true_eq, and_imp]
    intro o ho hreq
    obtain ⟨x, hx, rfl⟩ := hr o ho hreq
    exact (h4 _).2 (.inr ⟨x, hx, rfl⟩)
  · rw [h5, keys_initial hpos]
    intro x hx
    simp only
    rw [keys_initial hpos]
    exact List.mem_map.2 ⟨x.opt, List.mem_filter.2 ⟨(hl x hx).denotes.1, by simpa using hnh x hx⟩, rfl⟩
  · intro o ho hk
    rw [h6]
    unfold Parser.meaning
    rw [find_dest hP ho, get?_initial hP hpos ho hk]
    cases (l.reverse.find? fun x => x.opt.dest = o.dest).bind (Setting.value float) <;> rfl

end Cli
end Magnopy
