import Verif.Lemmas.Cli

/-!
# Lemmas about all command lines
-/

set_option autoImplicit false
set_option linter.unusedSectionVars false

namespace Magnopy
namespace Cli

variable {K : Type} {P : Parser} {float : Str → Option K} {argv : List Str}

theorem bind_ok {ε α β : Type} {x : Except ε α} {f : α → Except ε β} {y : β} (h : x.bind f = .ok y) :
    ∃ a, x = .ok a ∧ f a = .ok y := by
  cases x with
  | error e => cases h
  | ok a => exact ⟨a, rfl, h⟩

theorem map_ok {ε α β : Type} {x : Except ε α} {f : α → β} {y : β} (h : x.map f = .ok y) : ∃ a, x = .ok a ∧ f a = y := by
  cases x with
  | error e => cases h
  | ok a => exact ⟨a, rfl, by injection h⟩

theorem splitEq_suffix {s p v : Str} (h : splitEq s = some (p, v)) : v <:+ s := by
  unfold splitEq at h
  have e := List.takeWhile_append_dropWhile (p := (· != '=')) (l := s)
  cases hd : s.dropWhile (· != '=') with
  | nil => rw [hd] at h; cases h
  | cons c v' =>
    rw [hd] at h e
    simp only [Option.some.injEq, Prod.mk.injEq] at h
    obtain ⟨_, rfl⟩ := h
    exact ⟨s.takeWhile (· != '=') ++ [c], by rw [List.append_assoc]; exact e⟩

/-- A token of the arguments: the option is one of the parser, the text behind it is the end of the argument. -/
def Tok.Of (P : Parser) (w : Str) : Tok → Prop
  | .opt (some o) _ e => o ∈ P.opts ∧ ∀ q, e = some q → q.2 <:+ w
  | _ => True

theorem optionTuples_of {s n : Str} {o : Opt} {e : Option (Bool × Str)} (h : (o, n, e) ∈ optionTuples P s) :
    o ∈ P.opts ∧ ∀ q, e = some q → q.2 <:+ s := by
  unfold optionTuples at h
  split at h
  · rename_i rest
    cases hs : splitEq ('-' :: '-' :: rest) with
    | none =>
      rw [hs] at h
      simp only [List.mem_map, List.mem_filter, Prod.mk.injEq] at h
      obtain ⟨⟨n', o'⟩, ⟨hm, _⟩, rfl, _, rfl⟩ := h
      exact ⟨(mem_table.1 hm).1, fun q hq => by cases hq⟩
    | some pv =>
      obtain ⟨p, v⟩ := pv
      rw [hs] at h
      simp only [List.mem_map, List.mem_filter, Prod.mk.injEq] at h
      obtain ⟨⟨n', o'⟩, ⟨hm, _⟩, rfl, _, rfl⟩ := h
      refine ⟨(mem_table.1 hm).1, fun q hq => ?_⟩
      injection hq with hq
      subst hq
      exact splitEq_suffix hs
  · rename_i c v _
    simp only [List.mem_filterMap] at h
    obtain ⟨⟨n', o'⟩, hm, hif⟩ := h
    split_ifs at hif
    · simp only [Option.some.injEq, Prod.mk.injEq] at hif
      obtain ⟨rfl, _, rfl⟩ := hif
      refine ⟨(mem_table.1 hm).1, fun q hq => ?_⟩
      injection hq with hq
      subst hq
      exact ⟨['-', c], rfl⟩
    · simp only [Option.some.injEq, Prod.mk.injEq] at hif
      obtain ⟨rfl, _, rfl⟩ := hif
      exact ⟨(mem_table.1 hm).1, fun q hq => by cases hq⟩
  · cases h

theorem parseOptional_of {s : Str} {t : Tok} (h : parseOptional P s = .ok t) : t.Of P s := by
  unfold parseOptional at h
  cases s with
  | nil => injection h with h; subst h; trivial
  | cons c s =>
    simp only at h
    by_cases hc : c ≠ '-'
    · rw [if_pos hc] at h; injection h with h; subst h; trivial
    rw [if_neg hc] at h
    cases hg : P.table.get? (c :: s) with
    | some o =>
      rw [hg] at h
      injection h with h
      subst h
      exact ⟨(of_get? hg).1, fun q hq => by cases hq⟩
    | none =>
      rw [hg] at h
      simp only at h
      by_cases hl : (c :: s).length = 1
      · rw [if_pos hl] at h; injection h with h; subst h; trivial
      rw [if_neg hl] at h
      cases hb : (splitEq (c :: s)).bind fun q => (P.table.get? q.1).map fun o => (o, q) with
      | some onv =>
        obtain ⟨o, n, v⟩ := onv
        rw [hb] at h
        injection h with h
        subst h
        cases hs : splitEq (c :: s) with
        | none => rw [hs] at hb; cases hb
        | some pv =>
          rw [hs] at hb
          simp only [Option.bind_some, Option.map_eq_some_iff, Prod.mk.injEq] at hb
          obtain ⟨o', ho', rfl, rfl⟩ := hb
          refine ⟨(of_get? ho').1, fun q hq => ?_⟩
          injection hq with hq
          subst hq
          exact splitEq_suffix hs
      | none =>
        rw [hb] at h
        simp only at h
        cases ht : optionTuples P (c :: s) with
        | nil =>
          rw [ht] at h
          simp only at h
          split_ifs at h <;> (injection h with h; subst h; trivial)
        | cons a l =>
          cases l with
          | cons b l => rw [ht] at h; cases h
          | nil =>
            obtain ⟨o, n, e⟩ := a
            rw [ht] at h
            injection h with h
            subst h
            exact optionTuples_of (by rw [ht]; exact List.mem_singleton.2 rfl)

/-- All tokens belong to arguments. -/
theorem classify_of {l : List Str} {ts : List (Str × Tok)} (h : classify P l = .ok ts) :
    ts.map Prod.fst = l ∧ ∀ e ∈ ts, e.2.Of P e.1 := by
  induction l generalizing ts with
  | nil => injection h with h; subst h; exact ⟨rfl, fun e he => by cases he⟩
  | cons s l ih =>
    rw [classify] at h
    split_ifs at h with hs
    · injection h with h
      subst h
      refine ⟨?_, ?_⟩
      · simp [Function.comp_def]
      · intro e he
        rcases List.mem_cons.1 he with rfl | he
        · trivial
        · obtain ⟨w, _, rfl⟩ := List.mem_map.1 he
          trivial
    · cases hp : parseOptional P s with
      | error e => rw [hp] at h; cases h
      | ok t =>
        rw [hp] at h
        obtain ⟨r, hr, rfl⟩ := map_ok h
        obtain ⟨h1, h2⟩ := ih hr
        refine ⟨by rw [List.map_cons, h1], fun e he => ?_⟩
        rcases List.mem_cons.1 he with rfl | he
        · exact parseOptional_of hp
        · exact h2 e he

/-- Options that are written together. -/
theorem cluster_of {o : Opt} {name v : Str} {sep : Bool} {r : List Opt × Option (Opt × Option Str)} (ho : o ∈ P.opts)
    (h : cluster P o name sep v = .ok r) :
    (∀ x ∈ r.1, x ∈ P.opts ∧ x.kind ≠ .one ∧ x.kind ≠ .many ∧ x.kind ≠ .three) ∧
      ∀ q, r.2 = some q → q.1 ∈ P.opts ∧ ∀ w, q.2 = some w → (q.1.kind = .one ∨ q.1.kind = .many) ∧ w <:+ v := by
  induction hn : v.length using Nat.strong_induction_on generalizing o name v sep r with
  | _ n ih =>
  rw [cluster.eq_def] at h
  simp only at h
  have hrec : ∀ (c : Char) (v' : Str), v = c :: v' → o.kind ≠ .one → o.kind ≠ .many → o.kind ≠ .three →
      (match P.table.get? ['-', c] with
        | none => .ok ([o], none)
        | some o' =>
          match v' with
          | [] => .ok ([o], some (o', none))
          | d :: v'' =>
            if d = '=' then (cluster P o' ['-', c] true v'').map fun r => (o :: r.1, r.2)
            else (cluster P o' ['-', c] false (d :: v'')).map fun r => (o :: r.1, r.2)) = Except.ok r →
      (∀ x ∈ r.1, x ∈ P.opts ∧ x.kind ≠ .one ∧ x.kind ≠ .many ∧ x.kind ≠ .three) ∧
        ∀ q, r.2 = some q → q.1 ∈ P.opts ∧ ∀ w, q.2 = some w → (q.1.kind = .one ∨ q.1.kind = .many) ∧ w <:+ v := by
    intro c v' hv k1 k2 k3 h
    cases hg : P.table.get? ['-', c] with
    | none =>
      rw [hg] at h
      injection h with h
      subst h
      exact ⟨fun x hx => by rw [List.mem_singleton.1 hx]; exact ⟨ho, k1, k2, k3⟩, fun q hq => by cases hq⟩
    | some o' =>
      have ho' := (of_get? hg).1
      rw [hg] at h
      cases v' with
      | nil =>
        injection h with h
        subst h
        refine ⟨fun x hx => by rw [List.mem_singleton.1 hx]; exact ⟨ho, k1, k2, k3⟩, fun q hq => ?_⟩
        injection hq with hq
        subst hq
        exact ⟨ho', fun w hw => by cases hw⟩
      | cons d v'' =>
        simp only at h
        have key : ∀ (sep : Bool) (u : Str), u <:+ v → u.length < v.length → (cluster P o' ['-', c] sep u).map
            (fun r => (o :: r.1, r.2)) = Except.ok r →
            (∀ x ∈ r.1, x ∈ P.opts ∧ x.kind ≠ .one ∧ x.kind ≠ .many ∧ x.kind ≠ .three) ∧
              ∀ q, r.2 = some q → q.1 ∈ P.opts ∧ ∀ w, q.2 = some w → (q.1.kind = .one ∨ q.1.kind = .many) ∧ w <:+ v := by
          intro sep u hu hlt h
          obtain ⟨r', hr', rfl⟩ := map_ok h
          obtain ⟨h1, h2⟩ := ih u.length (hn ▸ hlt) ho' hr' rfl
          refine ⟨fun x hx => ?_, fun q hq => ⟨(h2 q hq).1, fun w hw => ⟨((h2 q hq).2 w hw).1, ((h2 q hq).2 w hw).2.trans hu⟩⟩⟩
          rcases List.mem_cons.1 hx with rfl | hx
          · exact ⟨ho, k1, k2, k3⟩
          · exact h1 x hx
        split_ifs at h
        · exact key true v'' (hv ▸ ⟨[c, d], rfl⟩) (by rw [hv]; simp only [List.length_cons]; omega) h
        · exact key false (d :: v'') (hv ▸ ⟨[c], rfl⟩) (by rw [hv]; simp) h
  have hflag : o.kind ≠ .one → o.kind ≠ .many → o.kind ≠ .three →
      (if name.getD 1 '-' = '-' then .error .usage
      else
        match v with
        | [] => .error .usage
        | c :: v' =>
          if sep || c == '-' then .error .usage
          else
            match P.table.get? ['-', c] with
            | none => .ok ([o], none)
            | some o' =>
              match v' with
              | [] => .ok ([o], some (o', none))
              | d :: v'' =>
                if d = '=' then (cluster P o' ['-', c] true v'').map fun r => (o :: r.1, r.2)
                else (cluster P o' ['-', c] false (d :: v'')).map fun r => (o :: r.1, r.2)) = Except.ok r →
      (∀ x ∈ r.1, x ∈ P.opts ∧ x.kind ≠ .one ∧ x.kind ≠ .many ∧ x.kind ≠ .three) ∧
        ∀ q, r.2 = some q → q.1 ∈ P.opts ∧ ∀ w, q.2 = some w → (q.1.kind = .one ∨ q.1.kind = .many) ∧ w <:+ v := by
    intro k1 k2 k3 h
    by_cases hd : name.getD 1 '-' = '-'
    · rw [if_pos hd] at h; cases h
    · rw [if_neg hd] at h
      cases v with
      | nil => cases h
      | cons c v' =>
        simp only at h
        by_cases hs : (sep || c == '-') = true
        · rw [if_pos hs] at h; cases h
        · rw [if_neg hs] at h
          exact hrec c v' rfl k1 k2 k3 h
  have hval : (o.kind = .one ∨ o.kind = .many) → Except.ok ([], some (o, some v)) = (Except.ok r : Except Stop _) →
      (∀ x ∈ r.1, x ∈ P.opts ∧ x.kind ≠ .one ∧ x.kind ≠ .many ∧ x.kind ≠ .three) ∧
        ∀ q, r.2 = some q → q.1 ∈ P.opts ∧ ∀ w, q.2 = some w → (q.1.kind = .one ∨ q.1.kind = .many) ∧ w <:+ v := by
    intro hk h
    injection h with h
    subst h
    refine ⟨fun x hx => (by cases hx), fun q hq => ?_⟩
    injection hq with hq
    subst hq
    refine ⟨ho, fun w hw => ?_⟩
    injection hw with hw
    subst hw
    exact ⟨hk, List.suffix_rfl⟩
  cases hk : o.kind with
  | help => rw [hk] at h; exact hflag (by simp [hk]) (by simp [hk]) (by simp [hk]) h
  | flag => rw [hk] at h; exact hflag (by simp [hk]) (by simp [hk]) (by simp [hk]) h
  | one => rw [hk] at h; exact hval (.inl hk) h
  | many => rw [hk] at h; exact hval (.inr hk) h
  | three => rw [hk] at h; cases h

/-- The words come from the arguments, three of them for numbers. -/
def Words (o : Opt) (argv : List Str) (ws : List Str) : Prop :=
  (∀ w ∈ ws, ∃ a ∈ argv, w <:+ a) ∧ (o.kind = .three → ws.length = 3 ∧ ∀ w ∈ ws, w ∈ argv)

theorem mapM_some {α β : Type} {f : α → Option β} {l : List α} {r : List β} (h : l.mapM f = some r) :
    r.length = l.length ∧ ∀ b ∈ r, ∃ a ∈ l, f a = some b := by
  induction l generalizing r with
  | nil =>
    simp only [List.mapM_nil] at h
    injection h with h
    subst h
    simp
  | cons a l ih =>
    rw [List.mapM_cons] at h
    cases hf : f a with
    | none => rw [hf] at h; cases h
    | some b =>
      cases hl : l.mapM f with
      | none => rw [hf, hl] at h; cases h
      | some r' =>
        rw [hf, hl] at h
        injection h with h
        subst h
        obtain ⟨h1, h2⟩ := ih hl
        refine ⟨by simp [h1], fun b' hb' => ?_⟩
        rcases List.mem_cons.1 hb' with rfl | hb'
        · exact ⟨a, by simp, hf⟩
        · obtain ⟨a', ha', hfa⟩ := h2 b' hb'
          exact ⟨a', List.mem_cons_of_mem _ ha', hfa⟩

theorem getValues_allows {o : Opt} {ws : List Str} {v : Value K} (hw : Words o argv ws) (h : getValues float o ws = .ok v) :
    o.Allows float argv v := by
  unfold getValues at h
  cases hk : o.kind with
  | help => rw [hk] at h; cases h
  | flag => rw [hk] at h; injection h with h; subst h; exact ⟨hk, rfl⟩
  | one =>
    rw [hk] at h
    simp only at h
    split at h
    · rename_i w
      split_ifs at h with hc
      injection h with h
      subst h
      exact ⟨hk, checked_iff.1 hc, hw.1 w (by simp)⟩
    · cases h
  | many =>
    rw [hk] at h
    simp only at h
    split_ifs at h with hc
    injection h with h
    subst h
    exact ⟨hk, fun w hm => ⟨checked_iff.1 (List.all_eq_true.1 hc w hm), hw.1 w hm⟩⟩
  | three =>
    rw [hk] at h
    simp only at h
    cases hm : ws.mapM float with
    | none => rw [hm] at h; cases h
    | some l =>
      rw [hm] at h
      injection h with h
      subst h
      obtain ⟨h1, h2⟩ := mapM_some hm
      refine ⟨hk, by rw [h1, (hw.2 hk).1], fun x hx => ?_⟩
      obtain ⟨a, ha, hf⟩ := h2 x hx
      exact ⟨a, (hw.2 hk).2 a ha, hf⟩

/-- Every attribute has its default or an allowed value; options that were seen have an allowed value. -/
structure Sound (P : Parser) (float : Str → Option K) (argv : List Str) (s : State K) : Prop where
  keys : s.vals.keys = (initial P : PyDict Str (Value K)).keys
  vals : ∀ o ∈ P.opts, o.kind ≠ .help → ∃ v, s.vals.get? o.dest = some v ∧ (v = o.default.value ∨ o.Allows float argv v)
  seen : ∀ o ∈ P.opts, o.dest ∈ s.seen → ∃ v, s.vals.get? o.dest = some v ∧ o.Allows float argv v
  pos : ∀ q, P.pos = some q → s.vals.get? q.1 = some .none ∨ ∃ w ∈ q.2, w ∈ argv ∧ s.vals.get? q.1 = some (.str w)

theorem keys_initial' : (initial P : PyDict Str (Value K)).keys =
    (P.opts.filter fun o => o.kind ≠ .help).map Opt.dest ++ (match P.pos with | some q => [q.1] | none => []) := by
  unfold initial PyDict.keys
  rw [List.map_append, List.map_map]
  cases P.pos <;> rfl

theorem nodup_initial (hP : P.Good) : (initial P : PyDict Str (Value K)).keys.Nodup := by
  rw [keys_initial']
  have h1 : ((P.opts.filter fun o => o.kind ≠ .help).map Opt.dest).Nodup := hP.dests.sublist ((List.filter_sublist).map _)
  cases hq : P.pos with
  | none => simpa using h1
  | some q =>
    refine List.Nodup.append h1 (by simp) ?_
    intro x hx hx'
    rw [List.mem_singleton.1 hx'] at hx
    exact hP.pos q hq (((List.filter_sublist).map _).subset hx)

theorem sound_initial (hP : P.Good) : Sound P float argv ⟨initial P, [], true, false⟩ where
  keys := rfl
  vals o ho hk := by
    refine ⟨o.default.value, PyDict.get?_of_mem (nodup_initial hP) ?_, .inl rfl⟩
    exact List.mem_append_left _ (List.mem_map.2 ⟨o, List.mem_filter.2 ⟨ho, by simpa using hk⟩, rfl⟩)
  seen o ho h := by cases h
  pos q hq := by
    refine .inl (PyDict.get?_of_mem (nodup_initial hP) ?_)
    unfold initial
    rw [hq]
    exact List.mem_append_right _ (by simp)

theorem Sound.extra {s : State K} (hs : Sound P float argv s) (b c : Bool) :
    Sound P float argv { s with pending := b, extras := c } := ⟨hs.keys, hs.vals, hs.seen, hs.pos⟩

theorem Sound.take (hP : P.Good) {s s' : State K} (hs : Sound P float argv s) {o : Opt} (ho : o ∈ P.opts) {ws : List Str}
    (hw : Words o argv ws) (h : Cli.take float o ws s = .ok s') : Sound P float argv s' := by
  obtain ⟨v, hv, rfl⟩ := map_ok h
  have hal := getValues_allows hw hv
  have hkey : o.dest ∈ s.vals.keys := by
    rw [hs.keys, keys_initial']
    refine List.mem_append_left _ (List.mem_map.2 ⟨o, List.mem_filter.2 ⟨ho, ?_⟩, rfl⟩)
    simp only [ne_eq, decide_not, Bool.not_eq_eq_eq_not, Bool.not_true, decide_eq_false_iff_not]
    intro hk
    unfold getValues at hv
    rw [hk] at hv
    cases hv
  refine ⟨?_, fun o' ho' hk => ?_, fun o' ho' hsn => ?_, fun q hq => ?_⟩
  · simp only
    rw [PyDict.keys_set_of_mem hkey, hs.keys]
  · simp only [PyDict.get?_set]
    split_ifs with hd
    · have : o' = o := List.inj_on_of_nodup_map hP.dests ho' ho hd.symm
      subst this
      exact ⟨v, rfl, .inr hal⟩
    · exact hs.vals o' ho' hk
  · simp only [PyDict.get?_set]
    split_ifs with hd
    · have : o' = o := List.inj_on_of_nodup_map hP.dests ho' ho hd.symm
      subst this
      exact ⟨v, rfl, hal⟩
    · exact hs.seen o' ho' ((List.mem_cons.1 hsn).resolve_left fun e => hd e.symm)
  · simp only [PyDict.get?_set]
    have hd : ¬ o.dest = q.1 := fun e => hP.pos q hq (e ▸ List.mem_map.2 ⟨o, ho, rfl⟩)
    simp only [if_neg hd]
    exact hs.pos q hq

theorem Sound.takeAll (hP : P.Good) {os : List Opt} {s s' : State K} (hs : Sound P float argv s)
    (ho : ∀ o ∈ os, o ∈ P.opts ∧ o.kind ≠ .one ∧ o.kind ≠ .many ∧ o.kind ≠ .three)
    (h : Cli.takeAll float os s = .ok s') : Sound P float argv s' := by
  induction os generalizing s with
  | nil => injection h with h; subst h; exact hs
  | cons o os ih =>
    obtain ⟨t, h1, h2⟩ := bind_ok h
    have ho1 := ho o (by simp)
    exact ih (hs.take hP ho1.1 ⟨fun w hw => (by cases hw), fun hk => absurd hk ho1.2.2.2⟩ h1)
      (fun x hx => ho x (List.mem_cons_of_mem _ hx)) h2

theorem words_count {o : Opt} {rest : List (Str × Tok)} {n : ℕ} (hr : ∀ e ∈ rest, e.1 ∈ argv) (h : count o.kind rest = .ok n) :
    Words o argv ((rest.take n).map Prod.fst) := by
  have hm : ∀ w ∈ (rest.take n).map Prod.fst, w ∈ argv := by
    intro w hw
    obtain ⟨e, he, rfl⟩ := List.mem_map.1 hw
    exact hr e (List.mem_of_mem_take he)
  refine ⟨fun w hw => ⟨w, hm w hw, List.suffix_rfl⟩, fun hk => ⟨?_, hm⟩⟩
  unfold count at h
  rw [hk] at h
  simp only at h
  split_ifs at h with hn
  injection h with h
  subst h
  have := hn.trans (List.takeWhile_sublist (fun e : Str × Tok => decide (e.2 = .arg)) (l := rest)).length_le
  rw [List.length_map, List.length_take, min_eq_left this]

theorem positional_mem {l : List (Str × Tok)} {w : Str} (h : w ∈ positional l) : w ∈ l.map Prod.fst := by
  unfold positional at h
  split at h <;> simp at h ⊢ <;> tauto

theorem Sound.takePositional (hP : P.Good) {q : Str × List Str} (hq : P.pos = some q) {ws : List Str} (hw : ∀ w ∈ ws, w ∈ argv)
    {s s' : State K} (hs : Sound P float argv s) (h : Cli.takePositional q ws s = .ok s') : Sound P float argv s' := by
  have hkey : q.1 ∈ s.vals.keys := by
    rw [hs.keys, keys_initial', hq]
    exact List.mem_append_right _ (by simp)
  have key : ∀ v : Value K, (v = .none ∨ ∃ w ∈ q.2, w ∈ argv ∧ v = .str w) →
      Sound P float argv { s with pending := false, vals := s.vals.set q.1 v } := by
    intro v hv
    have hd : ∀ o ∈ P.opts, ¬ q.1 = o.dest := fun o ho e => hP.pos q hq (e ▸ List.mem_map.2 ⟨o, ho, rfl⟩)
    refine ⟨?_, fun o ho hk => ?_, fun o ho hsn => ?_, fun q' hq' => ?_⟩
    · simp only
      rw [PyDict.keys_set_of_mem hkey, hs.keys]
    · simp only [PyDict.get?_set, if_neg (hd o ho)]
      exact hs.vals o ho hk
    · simp only [PyDict.get?_set, if_neg (hd o ho)]
      exact hs.seen o ho hsn
    · obtain rfl : q = q' := by rw [hq] at hq'; injection hq'
      simp only [PyDict.get?_set, if_true]
      rcases hv with rfl | ⟨w, h1, h2, rfl⟩
      · exact .inl rfl
      · exact .inr ⟨w, h1, h2, rfl⟩
  unfold Cli.takePositional at h
  cases he : ws.erase ['-', '-'] with
  | nil =>
    rw [he] at h
    injection h with h
    subst h
    exact key _ (.inl rfl)
  | cons w l =>
    rw [he] at h
    simp only at h
    split_ifs at h with hm
    injection h with h
    subst h
    exact key _ (.inr ⟨w, by simpa [Str.mem] using hm, hw w (List.mem_of_mem_erase (he ▸ List.mem_cons_self ..)), rfl⟩)

theorem loop_sound (hP : P.Good) {fuel : ℕ} {ts : List (Str × Tok)} {s s' : State K} (ht : ∀ e ∈ ts, e.1 ∈ argv ∧ e.2.Of P e.1)
    (hs : Sound P float argv s) (h : loop P float fuel ts s = .ok s') : Sound P float argv s' := by
  induction fuel generalizing ts s with
  | zero => injection h with h; subst h; exact hs
  | succ fuel ih =>
    cases ts with
    | nil => injection h with h; subst h; exact hs
    | cons e rest =>
      have hrest : ∀ e ∈ rest, e.1 ∈ argv ∧ e.2.Of P e.1 := fun e he => ht e (List.mem_cons_of_mem _ he)
      have hdrop : ∀ n, ∀ e ∈ rest.drop n, e.1 ∈ argv ∧ e.2.Of P e.1 := fun n e he => hrest e (List.mem_of_mem_drop he)
      obtain ⟨w, t⟩ := e
      have hw := ht (w, t) (by simp)
      have hposn : ∀ t, t = Tok.arg ∨ t = Tok.dashes → (w, t) ∈ (w, t) :: rest → (∀ e ∈ (w, t) :: rest, e.1 ∈ argv ∧ e.2.Of P e.1) →
          (match P.pos with
            | some q =>
              if s.pending then
                let ws := positional ((w, t) :: rest)
                (Cli.takePositional q ws s).bind (loop P float fuel (((w, t) :: rest).drop ws.length))
              else loop P float fuel rest { s with extras := true }
            | none => loop P float fuel rest { s with extras := true }) = .ok s' → Sound P float argv s' := by
        intro t _ _ ht h
        cases hq : P.pos with
        | none => rw [hq] at h; exact ih hrest (hs.extra s.pending true) h
        | some q =>
          rw [hq] at h
          simp only at h
          split_ifs at h with hpd
          · obtain ⟨u, h1, h2⟩ := bind_ok h
            refine ih (fun e he => ht e (List.mem_of_mem_drop he)) (hs.takePositional hP hq ?_ h1) h2
            intro x hx
            obtain ⟨e, he, rfl⟩ := List.mem_map.1 (positional_mem hx)
            exact (ht e he).1
          · exact ih hrest (hs.extra s.pending true) h
      cases t with
      | arg => rw [loop] at h; exact hposn _ (.inl rfl) (by simp) ht h; all_goals simp
      | dashes => rw [loop] at h; exact hposn _ (.inr rfl) (by simp) ht h; all_goals simp
      | opt o name e =>
        rw [loop.eq_def] at h
        simp only at h
        cases o with
        | none => exact ih hrest (hs.extra s.pending true) h
        | some o =>
          obtain ⟨ho, hsuf⟩ := hw.2
          cases e with
          | none =>
            obtain ⟨n, h1, h2⟩ := bind_ok h
            obtain ⟨u, h3, h4⟩ := bind_ok h2
            exact ih (hdrop n) (hs.take hP ho (words_count (fun e he => (hrest e he).1) h1) h3) h4
          | some sv =>
            obtain ⟨sep, v⟩ := sv
            have hv : v <:+ w := hsuf _ rfl
            obtain ⟨r, h1, h2⟩ := bind_ok h
            obtain ⟨h3, h4⟩ := cluster_of ho h1
            obtain ⟨os, x⟩ := r
            cases x with
            | none =>
              obtain ⟨u, h5, h6⟩ := bind_ok h2
              exact ih hrest ((hs.takeAll hP h3 h5).extra u.pending true) h6
            | some x =>
              obtain ⟨o', y⟩ := x
              obtain ⟨h5, h6⟩ := h4 _ rfl
              cases y with
              | some v' =>
                obtain ⟨u, h7, h8⟩ := bind_ok h2
                obtain ⟨u', h9, h10⟩ := bind_ok h7
                obtain ⟨h11, h12⟩ := h6 v' rfl
                refine ih hrest ((hs.takeAll hP h3 h9).take hP h5 ⟨fun y hy => ?_, fun hk => (by rw [hk] at h11; rcases h11 with h | h <;> cases h)⟩ h10) h8
                rw [List.mem_singleton.1 hy]
                exact ⟨w, hw.1, h12.trans hv⟩
              | none =>
                obtain ⟨n, h7, h8⟩ := bind_ok h2
                obtain ⟨u, h9, h10⟩ := bind_ok h8
                obtain ⟨u', h11, h12⟩ := bind_ok h9
                exact ih (hdrop n) ((hs.takeAll hP h3 h11).take hP h5 (words_count (fun e he => (hrest e he).1) h7) h12) h10

/-- What any accepted command line gives. -/
theorem parse_sound (hP : P.Good) {d : PyDict Str (Value K)} (h : parseArgs P float argv = .ok d) :
    d.keys = (initial P : PyDict Str (Value K)).keys ∧
    (∀ o ∈ P.opts, o.kind ≠ .help → ∃ v, d.get? o.dest = some v ∧ (o.Allows float argv v ∨ o.required = false ∧ v = o.default.value)) ∧
    ∀ q, P.pos = some q → d.get? q.1 = some .none ∨ ∃ w ∈ q.2, w ∈ argv ∧ d.get? q.1 = some (.str w) := by
  obtain ⟨ts, h1, h2⟩ := bind_ok h
  obtain ⟨s, h3, h4⟩ := bind_ok h2
  obtain ⟨h5, h6⟩ := classify_of h1
  have hs := loop_sound hP (argv := argv) (fun e he => ⟨h5 ▸ List.mem_map.2 ⟨e, he, rfl⟩, h6 e he⟩) (sound_initial hP) h3
  split_ifs at h4 with hc
  injection h4 with h4
  subst h4
  refine ⟨hs.keys, fun o ho hk => ?_, hs.pos⟩
  by_cases hr : o.required = true
  · simp only [Bool.and_eq_true, List.all_eq_true, List.mem_filter, decide_eq_true_eq, and_imp] at hc
    obtain ⟨v, h7, h8⟩ := hs.seen o ho (hc.1 o ho hr)
    exact ⟨v, h7, .inl h8⟩
  · obtain ⟨v, h7, h8⟩ := hs.vals o ho hk
    exact ⟨v, h7, h8.symm.imp id fun e => ⟨by simpa using hr, e⟩⟩

/-! ### A parser with flags and one positional argument -/

theorem classify_arg {l : List Str} {ts : List (Str × Tok)} (h : classify P l = .ok ts) :
    ∀ e ∈ ts, (e.2 = .dashes → e.1 = ['-', '-']) ∧ (e.1.head? ≠ some '-' → e.2 = .arg) := by
  induction l generalizing ts with
  | nil => injection h with h; subst h; exact fun e he => by cases he
  | cons s l ih =>
    rw [classify] at h
    split_ifs at h with hs
    · injection h with h
      subst h
      intro e he
      rcases List.mem_cons.1 he with rfl | he
      · exact ⟨fun _ => hs, fun hh => absurd (by rw [hs]; rfl) hh⟩
      · obtain ⟨w, _, rfl⟩ := List.mem_map.1 he
        exact ⟨fun hh => (by cases hh), fun _ => rfl⟩
    · cases hp : parseOptional P s with
      | error e => rw [hp] at h; cases h
      | ok t =>
        rw [hp] at h
        obtain ⟨r, hr, rfl⟩ := map_ok h
        intro e he
        rcases List.mem_cons.1 he with rfl | he
        · refine ⟨fun hh => ?_, fun hh => ?_⟩
          · simp only at hh
            subst hh
            exfalso
            unfold parseOptional at hp
            split at hp
            · cases hp
            · repeat' split at hp
              all_goals first | (injection hp with hp; cases hp) | cases hp
          · simp only at hh ⊢
            unfold parseOptional at hp
            split at hp
            · injection hp with hp; exact hp.symm
            · rename_i c l'
              have : c ≠ '-' := fun e => hh (by rw [e]; rfl)
              rw [if_pos this] at hp
              injection hp with hp
              exact hp.symm
        · exact ih hr e he

variable {q : Str × List Str}

theorem take_other {s s' : State K} {o : Opt} {ws : List Str} (hd : o.dest ≠ q.1) (h : Cli.take float o ws s = .ok s') :
    s'.vals.get? q.1 = s.vals.get? q.1 ∧ s'.pending = s.pending ∧ s'.extras = s.extras := by
  obtain ⟨v, _, rfl⟩ := map_ok h
  refine ⟨?_, rfl, rfl⟩
  simp only [PyDict.get?_set, if_neg hd]

theorem takeAll_other {os : List Opt} {s s' : State K} (hd : ∀ o ∈ os, o.dest ≠ q.1) (h : Cli.takeAll float os s = .ok s') :
    s'.vals.get? q.1 = s.vals.get? q.1 ∧ s'.pending = s.pending ∧ s'.extras = s.extras := by
  induction os generalizing s with
  | nil => injection h with h; subst h; exact ⟨rfl, rfl, rfl⟩
  | cons o os ih =>
    obtain ⟨t, h1, h2⟩ := bind_ok h
    obtain ⟨a, b, c⟩ := take_other (hd o (by simp)) h1
    obtain ⟨a', b', c'⟩ := ih (fun x hx => hd x (List.mem_cons_of_mem _ hx)) h2
    exact ⟨a'.trans a, b'.trans b, c'.trans c⟩

/-- Only flags, and the positional argument. -/
structure Flags (P : Parser) (q : Str × List Str) : Prop where
  good : P.Good
  pos : P.pos = some q
  kinds : ∀ o ∈ P.opts, o.kind = .flag ∨ o.kind = .help
  choices : ∀ w ∈ q.2, w.head? ≠ some '-'

theorem Flags.dest (hP : Flags P q) {o : Opt} (ho : o ∈ P.opts) : o.dest ≠ q.1 :=
  fun e => hP.good.pos q hP.pos (e ▸ List.mem_map.2 ⟨o, ho, rfl⟩)

theorem Flags.count (hP : Flags P q) {o : Opt} (ho : o ∈ P.opts) {rest : List (Str × Tok)} {n : ℕ}
    (h : Cli.count o.kind rest = .ok n) : n = 0 := by
  unfold Cli.count at h
  rcases hP.kinds o ho with hk | hk <;> (rw [hk] at h; injection h with h; exact h.symm)

/-- One option: nothing else is consumed, and the positional argument stays. -/
theorem Flags.opt (hP : Flags P q) {fuel : ℕ} {w name : Str} {o : Option Opt} {e : Option (Bool × Str)} {rest : List (Str × Tok)}
    {s s' : State K} (ho : Tok.Of P w (.opt o name e)) (h : loop P float (fuel + 1) ((w, .opt o name e) :: rest) s = .ok s') :
    ∃ u : State K, u.vals.get? q.1 = s.vals.get? q.1 ∧ u.pending = s.pending ∧ (s.extras = true → u.extras = true) ∧
      loop P float fuel rest u = .ok s' := by
  rw [loop.eq_def] at h
  simp only at h
  cases o with
  | none => exact ⟨{ s with extras := true }, rfl, rfl, fun _ => rfl, h⟩
  | some o =>
    obtain ⟨ho, _⟩ := ho
    cases e with
    | none =>
      obtain ⟨n, h1, h2⟩ := bind_ok h
      obtain ⟨u, h3, h4⟩ := bind_ok h2
      obtain rfl := hP.count ho h1
      obtain ⟨a, b, c⟩ := take_other (hP.dest ho) h3
      exact ⟨u, a, b, fun hx => c.trans hx, h4⟩
    | some sv =>
      obtain ⟨sep, v⟩ := sv
      obtain ⟨r, h1, h2⟩ := bind_ok h
      obtain ⟨h3, h4⟩ := cluster_of ho h1
      obtain ⟨os, x⟩ := r
      have hos : ∀ o ∈ os, o.dest ≠ q.1 := fun o ho => hP.dest (h3 o ho).1
      cases x with
      | none =>
        obtain ⟨u, h5, h6⟩ := bind_ok h2
        obtain ⟨a, b, c⟩ := takeAll_other hos h5
        exact ⟨{ u with extras := true }, a, b, fun _ => rfl, h6⟩
      | some x =>
        obtain ⟨o', y⟩ := x
        obtain ⟨h5, h6⟩ := h4 _ rfl
        cases y with
        | some v' =>
          exfalso
          rcases (h6 v' rfl).1 with hk | hk <;> rcases hP.kinds o' h5 with hk' | hk' <;> rw [hk] at hk' <;> cases hk'
        | none =>
          obtain ⟨n, h7, h8⟩ := bind_ok h2
          obtain ⟨u, h9, h10⟩ := bind_ok h8
          obtain ⟨u', h11, h12⟩ := bind_ok h9
          obtain rfl := hP.count h5 h7
          obtain ⟨a, b, c⟩ := takeAll_other hos h11
          obtain ⟨a', b', c'⟩ := take_other (hP.dest h5) h12
          exact ⟨u, a'.trans a, b'.trans b, fun hx => c'.trans (c.trans hx), h10⟩

theorem takePositional_ok {ws : List Str} {s s' : State K} (h : Cli.takePositional q ws s = .ok s') :
    s'.pending = false ∧ s'.extras = s.extras ∧
      ∀ w l, ws.erase ['-', '-'] = w :: l → s'.vals.get? q.1 = some (.str w) := by
  unfold Cli.takePositional at h
  cases he : ws.erase ['-', '-'] with
  | nil =>
    rw [he] at h
    injection h with h
    subst h
    exact ⟨rfl, rfl, fun w l e => by cases e⟩
  | cons w l =>
    rw [he] at h
    simp only at h
    split_ifs at h
    injection h with h
    subst h
    refine ⟨rfl, rfl, fun w' l' e => ?_⟩
    injection e with e1 e2
    subst e1
    simp only [PyDict.get?_set, if_true]

/-- Arguments that were not recognised stay. -/
theorem Flags.extras (hP : Flags P q) {fuel : ℕ} {ts : List (Str × Tok)} {s s' : State K} (ht : ∀ e ∈ ts, e.2.Of P e.1)
    (h : loop P float fuel ts s = .ok s') (hx : s.extras = true) : s'.extras = true := by
  induction fuel generalizing ts s with
  | zero => injection h with h; subst h; exact hx
  | succ fuel ih =>
    cases ts with
    | nil => injection h with h; subst h; exact hx
    | cons e rest =>
      obtain ⟨w, t⟩ := e
      have hrest : ∀ e ∈ rest, e.2.Of P e.1 := fun e he => ht e (List.mem_cons_of_mem _ he)
      have hdrop : ∀ n, ∀ e ∈ ((w, t) :: rest).drop n, e.2.Of P e.1 := fun n e he => ht e (List.mem_of_mem_drop he)
      cases t with
      | opt o name e =>
        obtain ⟨u, _, _, h3, h4⟩ := hP.opt (ht _ (List.mem_cons_self ..)) h
        exact ih hrest h4 (h3 hx)
      | arg =>
        rw [loop.eq_def] at h
        simp only [hP.pos] at h
        split_ifs at h with hp
        · obtain ⟨u, h1, h2⟩ := bind_ok h
          exact ih (hdrop _) h2 ((takePositional_ok h1).2.1.trans hx)
        · exact ih hrest h rfl
      | dashes =>
        rw [loop.eq_def] at h
        simp only [hP.pos] at h
        split_ifs at h with hp
        · obtain ⟨u, h1, h2⟩ := bind_ok h
          exact ih (hdrop _) h2 ((takePositional_ok h1).2.1.trans hx)
        · exact ih hrest h rfl

theorem positional_spec {x : Str} {t : Tok} {rest : List (Str × Tok)} (ht : t = .arg ∨ t = .dashes)
    (hd : ∀ e ∈ (x, t) :: rest, e.2 = .dashes → e.1 = ['-', '-']) :
    1 ≤ (positional ((x, t) :: rest)).length ∧
      ((x, t) :: rest).map Prod.fst = positional ((x, t) :: rest) ++
        (((x, t) :: rest).drop (positional ((x, t) :: rest)).length).map Prod.fst ∧
      ∀ w ∈ positional ((x, t) :: rest), w ≠ ['-', '-'] → ∃ l, (positional ((x, t) :: rest)).erase ['-', '-'] = w :: l := by
  rcases ht with rfl | rfl
  · rcases rest with _ | ⟨⟨y, t'⟩, r⟩
    · refine ⟨le_rfl, rfl, fun w hw hne => ?_⟩
      obtain rfl := List.mem_singleton.1 hw
      exact ⟨[], by simp [positional, hne]⟩
    · cases t' with
      | dashes =>
        have hy : y = ['-', '-'] := hd (y, .dashes) (by simp) rfl
        refine ⟨by simp [positional], rfl, fun w hw hne => ?_⟩
        simp only [positional, List.mem_cons, List.not_mem_nil, or_false] at hw
        rcases hw with rfl | rfl
        · exact ⟨[], by simp [positional, hne, hy]⟩
        · exact absurd hy hne
      | arg =>
        refine ⟨le_rfl, rfl, fun w hw hne => ?_⟩
        obtain rfl := List.mem_singleton.1 hw
        exact ⟨[], by simp [positional, hne]⟩
      | opt o n e =>
        refine ⟨le_rfl, rfl, fun w hw hne => ?_⟩
        obtain rfl := List.mem_singleton.1 hw
        exact ⟨[], by simp [positional, hne]⟩
  · have hx : x = ['-', '-'] := hd (x, .dashes) (by simp) rfl
    subst hx
    rcases rest with _ | ⟨⟨y, t'⟩, r⟩
    · refine ⟨le_rfl, rfl, fun w hw hne => ?_⟩
      exact absurd (List.mem_singleton.1 hw) hne
    · cases t' with
      | arg =>
        refine ⟨by simp [positional], rfl, fun w hw hne => ?_⟩
        simp only [positional, List.mem_cons, List.not_mem_nil, or_false] at hw
        rcases hw with rfl | rfl
        · exact absurd rfl hne
        · exact ⟨[], by simp [positional]⟩
      | dashes =>
        refine ⟨le_rfl, rfl, fun w hw hne => ?_⟩
        exact absurd (List.mem_singleton.1 hw) hne
      | opt o n e =>
        refine ⟨le_rfl, rfl, fun w hw hne => ?_⟩
        exact absurd (List.mem_singleton.1 hw) hne

/-- A choice of the positional argument among the arguments is its value, unless an argument is not recognised. -/
theorem Flags.value (hP : Flags P q) {fuel : ℕ} {ts : List (Str × Tok)} {s s' : State K} (hf : ts.length ≤ fuel)
    (ht : ∀ e ∈ ts, e.2.Of P e.1 ∧ (e.2 = .dashes → e.1 = ['-', '-']) ∧ (e.1.head? ≠ some '-' → e.2 = .arg))
    (h : loop P float fuel ts s = .ok s') (hx : s'.extras = false) {w : Str} (hw : w ∈ q.2) :
    (s.pending = true → w ∈ ts.map Prod.fst → s'.vals.get? q.1 = some (.str w)) ∧
      (s.pending = false → s'.vals.get? q.1 = s.vals.get? q.1 ∧ w ∉ ts.map Prod.fst) := by
  induction fuel generalizing ts s with
  | zero =>
    obtain rfl : ts = [] := List.length_eq_zero_iff.1 (by omega)
    injection h with h
    subst h
    exact ⟨fun _ hm => (by cases hm), fun _ => ⟨rfl, by simp⟩⟩
  | succ fuel ih =>
    cases ts with
    | nil =>
      injection h with h
      subst h
      exact ⟨fun _ hm => (by cases hm), fun _ => ⟨rfl, by simp⟩⟩
    | cons e rest =>
      obtain ⟨x, t⟩ := e
      have hwd := hP.choices w hw
      have hx0 := ht (x, t) (List.mem_cons_self ..)
      have hrest : ∀ e ∈ rest, e.2.Of P e.1 ∧ (e.2 = .dashes → e.1 = ['-', '-']) ∧ (e.1.head? ≠ some '-' → e.2 = .arg) :=
        fun e he => ht e (List.mem_cons_of_mem _ he)
      simp only [List.length_cons] at hf
      have hne : w ≠ ['-', '-'] := fun e => hwd (by rw [e]; rfl)
      have hpos : t = .arg ∨ t = .dashes → loop P float (fuel + 1) ((x, t) :: rest) s =
            (if s.pending then
              (Cli.takePositional q (positional ((x, t) :: rest)) s).bind
                (loop P float fuel (((x, t) :: rest).drop (positional ((x, t) :: rest)).length))
            else loop P float fuel rest { s with extras := true }) →
          (s.pending = true → w ∈ ((x, t) :: rest).map Prod.fst → s'.vals.get? q.1 = some (.str w)) ∧
            (s.pending = false → s'.vals.get? q.1 = s.vals.get? q.1 ∧ w ∉ ((x, t) :: rest).map Prod.fst) := by
        intro htok e
        rw [e] at h
        obtain ⟨s1, s2, s3⟩ := positional_spec htok fun e he => (ht e he).2.1
        by_cases hp : s.pending = true
        · rw [if_pos hp] at h
          refine ⟨fun _ hm => ?_, fun hp' => by rw [hp] at hp'; cases hp'⟩
          obtain ⟨u, h1, h2⟩ := bind_ok h
          obtain ⟨p1, p2, p3⟩ := takePositional_ok h1
          have := ih (by rw [List.length_drop, List.length_cons]; omega) (fun e he => ht e (List.mem_of_mem_drop he)) h2
          obtain ⟨j1, j2⟩ := this.2 p1
          rw [s2, List.mem_append] at hm
          obtain ⟨l, hl⟩ := s3 w (hm.resolve_right j2) hne
          rw [j1]
          exact p3 w l hl
        · rw [if_neg hp] at h
          have := hP.extras (fun e he => (hrest e he).1) h rfl
          rw [hx] at this
          cases this
      cases t with
      | opt o name e =>
        obtain ⟨u, h1, h2, _, h4⟩ := hP.opt hx0.1 h
        obtain ⟨i1, i2⟩ := ih (by omega) hrest h4
        have hwx : w ≠ x := by
          rintro rfl
          have := hx0.2.2 hwd
          cases this
        refine ⟨fun hp hm => ?_, fun hp => ?_⟩
        · rw [List.map_cons, List.mem_cons] at hm
          exact i1 (h2.trans hp) (hm.resolve_left hwx)
        · obtain ⟨j1, j2⟩ := i2 (h2.trans hp)
          refine ⟨j1.trans h1, ?_⟩
          rw [List.map_cons, List.mem_cons, not_or]
          exact ⟨hwx, j2⟩
      | arg => exact hpos (.inl rfl) (by rw [loop.eq_def]; simp only [hP.pos])
      | dashes => exact hpos (.inr rfl) (by rw [loop.eq_def]; simp only [hP.pos])

/-- A choice among the arguments of an accepted command line is the value of the positional argument. -/
theorem Flags.parse (hP : Flags P q) {argv : List Str} {d : PyDict Str (Value K)} (h : parseArgs P float argv = .ok d) {w : Str}
    (hw : w ∈ q.2) (hm : w ∈ argv) : d.get? q.1 = some (.str w) := by
  obtain ⟨ts, h1, h2⟩ := bind_ok h
  obtain ⟨s, h3, h4⟩ := bind_ok h2
  obtain ⟨h5, h6⟩ := classify_of h1
  have h7 := classify_arg h1
  split_ifs at h4 with hc
  injection h4 with h4
  subst h4
  simp only [Bool.and_eq_true, Bool.not_eq_eq_eq_not, Bool.not_true] at hc
  exact (hP.value le_rfl (fun e he => ⟨h6 e he, h7 e he⟩) h3 hc.2 hw).1 rfl (by rw [h5]; exact hm)

end Cli
end Magnopy
