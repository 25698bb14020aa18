import Verif.Lemmas.CliStray
import Verif.Model.Convert
import Verif.Model.Minimize

/-!
# C99: the command lines of the scripts
-/

set_option autoImplicit false
set_option linter.unusedSectionVars false

namespace Magnopy
namespace Cli

/-! ### The parsers -/

/-- A short name. -/
def shortName : Str → Bool
  | '-' :: c :: _ => c != '-' && c != '.' && !c.isDigit
  | _ => false

/-- A long name. -/
def longName : Str → Bool
  | '-' :: '-' :: _ :: _ => true
  | _ => false

theorem shortName_iff {s : Str} (h : shortName s = true) : ∃ c l, s = '-' :: c :: l ∧ c ≠ '-' ∧ c ≠ '.' ∧ c.isDigit = false := by
  unfold shortName at h
  split at h
  · rename_i c l
    simp only [Bool.and_eq_true, bne_iff_ne, ne_eq, Bool.not_eq_eq_eq_not, Bool.not_true] at h
    exact ⟨c, l, rfl, h.1.1, h.1.2, h.2⟩
  · cases h

theorem longName_iff {s : Str} (h : longName s = true) : ∃ c l, s = '-' :: '-' :: c :: l := by
  unfold longName at h
  split at h
  · exact ⟨_, _, rfl⟩
  · cases h

theorem good_of {P : Parser} (h1 : (P.opts.flatMap Opt.names).Nodup) (h2 : (P.opts.map Opt.dest).Nodup)
    (h3 : ∀ o ∈ P.opts, (∀ n ∈ o.names, '=' ∉ n) ∧ shortName o.short = true ∧ longName o.long = true)
    (h4 : ∀ q, P.pos = some q → q.1 ∉ P.opts.map Opt.dest) : P.Good :=
  ⟨h1, h2, fun o ho => (h3 o ho).1, fun o ho => shortName_iff (h3 o ho).2.1, fun o ho => longName_iff (h3 o ho).2.2, h4⟩

theorem convert_good : convertParser.Good := good_of (by decide) (by decide) (by decide) (by rintro q ⟨⟩)
theorem minimize_good : minimizeParser.Good := good_of (by decide) (by decide) (by decide) (by rintro q ⟨⟩)
theorem dispersion_good : dispersionParser.Good := good_of (by decide) (by decide) (by decide) (by rintro q ⟨⟩)
theorem main_good : mainParser.Good := good_of (by decide) (by decide) (by decide) (by rintro q ⟨⟩; decide)

/-- The attributes are the parameters of `manager`. -/
theorem scripts_fit : ∀ e ∈ scripts, e.1.pos = none ∧
    (∀ d ∈ (e.1.opts.filter fun o => o.kind ≠ .help).map Opt.dest, d ∈ e.2.map Prod.fst) ∧
    ∀ p ∈ e.2, ∃ o ∈ e.1.opts, o.kind ≠ .help ∧ o.dest = p.1 := by decide

theorem scripts_good : ∀ e ∈ scripts, e.1.Good := by
  intro e he
  simp only [scripts, List.mem_cons, List.not_mem_nil, or_false] at he
  rcases he with rfl | rfl | rfl
  · exact convert_good
  · exact minimize_good
  · exact dispersion_good

/-! ### Checks for the examples -/

instance (k : Kind) (n : ℕ) : Decidable (k.Takes n) := by cases k <;> unfold Kind.Takes <;> infer_instance

theorem denotes_of {P : Parser} {name : Str} {o : Opt} (h : o ∈ P.opts ∧ (name ∈ o.names ∨ longName name = true ∧ '=' ∉ name ∧
    ∀ o' ∈ P.opts, ∀ n ∈ o'.names, (name <+: n ↔ n = o.long))) : P.Denotes name o :=
  ⟨h.1, h.2.imp_right fun h => ⟨longName_iff h.1, h.2⟩⟩

theorem plain_of {b : Bool} {l : List Str} (h : b = false → ∀ w ∈ l, w.head? ≠ some '-') : b = false → ∀ w ∈ l, Plain w :=
  fun e w hw => .inl (h e w hw)

variable {K : Type} {float : Str → Option K} {P : Parser} {sig : Signature}

theorem mapM_ok {α β : Type} {f : α → Except PyErr β} {g : α → β} {l : List α} (h : ∀ a ∈ l, f a = .ok (g a)) :
    l.mapM f = .ok (l.map g) := by
  induction l with
  | nil => rfl
  | cons a l ih =>
    rw [List.mapM_cons, h a (by simp), ih fun x hx => h x (List.mem_cons_of_mem _ hx)]
    rfl

theorem bind_of {d : PyDict Str (Value K)} {f : Str → Value K} (hk : ∀ k ∈ d.keys, k ∈ sig.map Prod.fst)
    (h : ∀ p ∈ sig, d.get? p.1 = some (f p.1)) : bind sig d = .ok (sig.map fun p => f p.1) := by
  unfold bind
  rw [if_pos (List.all_eq_true.2 fun k hk' => decide_eq_true (hk k hk'))]
  exact mapM_ok fun p hp => by rw [h p hp]

/-- **C99, values.** If the command line of a script consists of settings — an option by one of its names or by an unambiguous
beginning of its long name, followed by its values, or by `=` and any value — in any order, and the required options are among
them, then `manager` is called with exactly these values (the last one, if an option is given more than once), and with the defaults
of the parser for the other parameters.  Values without `=` must not look like options. -/
theorem C99_values_partial (h : (P, sig) ∈ scripts) (l : List Setting) (hl : ∀ x ∈ l, x.Legal P float) (hg : P.Given l) :
    run P sig float (l.flatMap Setting.render) = .call (sig.map fun p => P.meaning float l p.1) := by
  obtain ⟨f1, f2, f3⟩ := scripts_fit _ h
  obtain ⟨d, h1, h2, h3⟩ := parse_settings (scripts_good _ h) f1 hl hg
  unfold run
  rw [h1]
  simp only
  rw [bind_of (f := P.meaning float l)]
  · intro k hk
    rw [h2] at hk
    exact f2 k hk
  · intro p hp
    obtain ⟨o, ho, hk, hd⟩ := f3 p hp
    rw [← hd]
    exact h3 o ho hk

/-! An instance: `-if=-x.out --out b.hdf5 -v -f txt --output-filename c.hdf5`. -/
example :
    let o (i : Nat) : Opt := convertParser.opts.getD i help
    let l : List Setting := [⟨o 1, Str.lit "-if", true, [Str.lit "-x.out"]⟩, ⟨o 2, Str.lit "--out", false, [Str.lit "b.hdf5"]⟩,
      ⟨o 4, Str.lit "-v", false, []⟩, ⟨o 3, Str.lit "-f", false, [Str.lit "txt"]⟩,
      ⟨o 2, Str.lit "--output-filename", false, [Str.lit "c.hdf5"]⟩]
    l.flatMap Setting.render = [Str.lit "-if=-x.out", Str.lit "--out", Str.lit "b.hdf5", Str.lit "-v", Str.lit "-f", Str.lit "txt",
      Str.lit "--output-filename", Str.lit "c.hdf5"] ∧
    run convertParser convertSig (fun w : Str => some w) (l.flatMap Setting.render) =
      .call [.str (Str.lit "-x.out"), .str (Str.lit "c.hdf5"), .str (Str.lit "txt"), .bool true] := by
  refine ⟨by decide, ?_⟩
  refine (C99_values_partial (by simp [scripts]) _ (fun x hx => ?_) ?_).trans rfl
  · simp only [List.mem_cons, List.not_mem_nil, or_false] at hx
    rcases hx with rfl | rfl | rfl | rfl | rfl <;>
      exact ⟨⟨denotes_of (by decide), by decide, by decide, by decide, by decide⟩, plain_of (by decide)⟩
  · unfold Parser.Given; decide

/-- **C99, values that look like options.** Without the guard the property is false: a magnetic field with the component `-1e-3` is not
accepted, although `-1e-3` is a number. -/
theorem C99_values_false : ¬ ∀ (K : Type) (float : Str → Option K) (P : Parser) (sig : Signature), (P, sig) ∈ scripts → ∀ l : List Setting,
    (∀ x ∈ l, x.Meant P float) → P.Given l →
    run P sig float (l.flatMap Setting.render) = .call (sig.map fun p => P.meaning float l p.1) := by
  intro h
  have := h Str some minimizeParser minimizeSig (by simp [scripts])
    [⟨minimizeParser.opts.getD 1 help, Str.lit "-sh", false, [Str.lit "a.txt"]⟩,
      ⟨minimizeParser.opts.getD 4 help, Str.lit "-mf", false, [Str.lit "0", Str.lit "0", Str.lit "-1e-3"]⟩]
    (fun x hx => by
      simp only [List.mem_cons, List.not_mem_nil, or_false] at hx
      rcases hx with rfl | rfl <;> exact ⟨denotes_of (by decide), by decide, by decide, by decide, by decide⟩)
    (by unfold Parser.Given; decide)
  cases (show run minimizeParser minimizeSig (some : Str → Option Str) [Str.lit "-sh", Str.lit "a.txt", Str.lit "-mf", Str.lit "0",
    Str.lit "0", Str.lit "-1e-3"] = .stop .usage from rfl).symm.trans this

/-- **C99, order.** The order of settings of different options is irrelevant. -/
theorem C99_order (h : (P, sig) ∈ scripts) (l l' : List Setting) (hl : ∀ x ∈ l, x.Legal P float) (hg : P.Given l) (hp : l.Perm l')
    (hd : (l.map fun x => x.opt.dest).Nodup) :
    run P sig float (l'.flatMap Setting.render) = run P sig float (l.flatMap Setting.render) := by
  rw [C99_values_partial h l hl hg, C99_values_partial h l' (fun x hx => hl x (hp.mem_iff.2 hx))
    (fun o ho hr => by obtain ⟨x, hx, e⟩ := hg o ho hr; exact ⟨x, hp.mem_iff.1 hx, e⟩)]
  congr 2
  funext p
  have key : ∀ m : List Setting, (m.map fun x => x.opt.dest).Nodup → ∀ x ∈ m, x.opt.dest = p.1 →
      (m.reverse.find? fun x => x.opt.dest = p.1) = some x := by
    intro m hm x hx e
    cases hf : m.reverse.find? fun x => x.opt.dest = p.1 with
    | none => exact absurd (List.find?_eq_none.1 hf x (List.mem_reverse.2 hx)) (by simpa using e)
    | some y =>
      have h1 := List.mem_reverse.1 (List.mem_of_find?_eq_some hf)
      have h2 := List.find?_some hf
      simp only [decide_eq_true_eq] at h2
      rw [List.inj_on_of_nodup_map hm h1 hx (h2.trans e.symm)]
  have : (l'.reverse.find? fun x => x.opt.dest = p.1) = l.reverse.find? fun x => x.opt.dest = p.1 := by
    by_cases he : ∃ x ∈ l, x.opt.dest = p.1
    · obtain ⟨x, hx, e⟩ := he
      rw [key l hd x hx e, key l' ((hp.map _).nodup_iff.1 hd) x (hp.mem_iff.1 hx) e]
    · have h1 : ∀ m : List Setting, (∀ x ∈ m, x ∈ l) → (m.reverse.find? fun x => x.opt.dest = p.1) = none := fun m hm =>
        List.find?_eq_none.2 fun x hx => by
          simp only [decide_eq_true_eq]
          exact fun e => he ⟨x, hm x (List.mem_reverse.1 hx), e⟩
      rw [h1 l fun _ h => h, h1 l' fun x hx => hp.mem_iff.2 hx]
  unfold Parser.meaning
  rw [this]

/-- **C99, any command line.** A script either stops before `manager` with a message, or it calls `manager` with a value for every
parameter: an allowed one that comes from the arguments, or the default of an option that is not required.  It never raises. -/
theorem C99_accepted (h : (P, sig) ∈ scripts) (argv : List Str) :
    (∃ e, run P sig float argv = .stop e) ∨
      ∃ f : Str → Value K, run P sig float argv = .call (sig.map fun p => f p.1) ∧
        ∀ o ∈ P.opts, o.kind ≠ .help → o.Allows float argv (f o.dest) ∨ o.required = false ∧ f o.dest = o.default.value := by
  obtain ⟨f1, f2, f3⟩ := scripts_fit _ h
  cases hd : parseArgs P float argv with
  | error e => exact .inl ⟨e, by unfold run; rw [hd]⟩
  | ok d =>
    obtain ⟨h1, h2, _⟩ := parse_sound (scripts_good _ h) hd
    right
    have hget : ∀ o ∈ P.opts, o.kind ≠ .help → d.get? o.dest = some ((d.get? o.dest).getD .none) := fun o ho hk => by
      obtain ⟨v, hv, _⟩ := h2 o ho hk
      rw [hv]
      rfl
    refine ⟨fun n => (d.get? n).getD .none, ?_, fun o ho hk => ?_⟩
    · unfold run
      rw [hd]
      simp only
      rw [bind_of (f := fun n => (d.get? n).getD .none)]
      · intro k hk
        rw [h1, keys_initial f1] at hk
        exact f2 k hk
      · intro p hp
        obtain ⟨o, ho, hk, e⟩ := f3 p hp
        rw [← e]
        exact hget o ho hk
    · obtain ⟨v, hv, hv'⟩ := h2 o ho hk
      simp only [hv, Option.getD_some]
      exact hv'

/-- **C99, what is refused.** A script stops with a message if more or fewer words follow an option than it takes, if a word is in front
of all options or behind `name=value`, if `--` is among the arguments, or the beginning of two names, or an option that does not
exist: no argument is ignored. -/
theorem C99_refused (h : (P, sig) ∈ scripts) (argv : List Str) (hr : P.Refuses argv) : ∃ e, run P sig float argv = .stop e := by
  obtain ⟨e, he⟩ := parse_refuses (float := float) (scripts_good _ h) (scripts_fit _ h).1 hr
  exact ⟨e, by unfold run; rw [he]⟩

/-! Instances: two file names behind `-sh`; two components of a field; `--spin` is the beginning of `--spinham` and
`--spinham-format`. -/
example : minimizeParser.Refuses [Str.lit "-sh", Str.lit "a", Str.lit "b"] :=
  .words [] [] [Str.lit "a", Str.lit "b"] (Str.lit "-sh") (minimizeParser.opts.getD 1 help) 1 (denotes_of (by decide)) (by decide) rfl
    (by decide) (by intro w hw; exact .inl ((by decide : ∀ w ∈ [Str.lit "a", Str.lit "b"], w.head? ≠ some '-') w hw))
example : minimizeParser.Refuses [Str.lit "-mf", Str.lit "0", Str.lit "1", Str.lit "-sh", Str.lit "b"] :=
  .few [] [Str.lit "-sh", Str.lit "b"] [Str.lit "0", Str.lit "1"] (Str.lit "-mf") (minimizeParser.opts.getD 4 help) 3
    (denotes_of (by decide)) (by decide) rfl (by decide)
    (by intro w hw; exact .inl ((by decide : ∀ w ∈ [Str.lit "0", Str.lit "1"], w.head? ≠ some '-') w hw))
    (by
      intro w hw
      simp only [List.head?_cons, Option.mem_some_iff] at hw
      subst hw
      exact ⟨minimizeParser.opts.getD 1 help, denotes_of (by decide)⟩)
example : minimizeParser.Refuses [Str.lit "--spin", Str.lit "a"] :=
  .ambiguous _ (Str.lit "--spin") (minimizeParser.opts.getD 1 help) (minimizeParser.opts.getD 2 help) (by decide) ⟨'s', Str.lit "pin", by decide⟩
    (by decide) (by decide) (by decide) (by decide) (by decide) (by decide) (by decide)

/-- The value of an option with one string. -/
theorem Opt.Allows.one {o : Opt} {argv : List Str} {v : Value K} (hk : o.kind = .one) (h : o.Allows float argv v) :
    ∃ w, v = .str w ∧ ∀ c, o.choices = some c → w ∈ c := by
  cases v with
  | none => exact h.elim
  | bool b => cases h.1.symm.trans hk
  | str w => exact ⟨w, rfl, h.2.1⟩
  | strs l => cases h.1.symm.trans hk
  | nums l => cases h.1.symm.trans hk

theorem Opt.Allows.flag {o : Opt} {argv : List Str} {v : Value K} (hk : o.kind = .flag) (h : o.Allows float argv v) :
    v = .bool true := by
  cases v with
  | none => exact h.elim
  | bool b => rw [h.2]
  | str w => cases h.1.symm.trans hk
  | strs l => cases h.1.symm.trans hk
  | nums l => cases h.1.symm.trans hk

theorem Opt.Allows.many {o : Opt} {argv : List Str} {v : Value K} (hk : o.kind = .many) (h : o.Allows float argv v) :
    ∃ l, v = .strs l ∧ ∀ w ∈ l, ∀ c, o.choices = some c → w ∈ c := by
  cases v with
  | none => exact h.elim
  | bool b => cases h.1.symm.trans hk
  | str w => cases h.1.symm.trans hk
  | strs l => exact ⟨l, rfl, fun w hw => (h.2 w hw).1⟩
  | nums l => cases h.1.symm.trans hk

theorem Opt.Allows.three {o : Opt} {argv : List Str} {v : Value K} (hk : o.kind = .three) (h : o.Allows float argv v) :
    ∃ l, v = .nums l ∧ l.length = 3 := by
  cases v with
  | none => exact h.elim
  | bool b => cases h.1.symm.trans hk
  | str w => cases h.1.symm.trans hk
  | strs l => cases h.1.symm.trans hk
  | nums l => exact ⟨l, rfl, h.2.1⟩

/-- **C99, conversion.** Whatever the command line of `magnopy-convert-tb2j` is: if `manager` runs, then it gets two file names, a
format that it supports (or none) and a truth value, and it does not raise the exception about the format. -/
theorem C99_convert (argv : List Str) (args : List (Value K)) (h : run convertParser convertSig float argv = .call args) :
    ∃ (i o : Str) (f : Option Str) (v : Bool),
      args = [.str i, .str o, (f.map .str).getD .none, .bool v] ∧ (∀ w, f = some w → w = Str.lit "txt" ∨ w = Str.lit "hdf5") ∧
      ∃ t, Convert.target o f = .ok t := by
  rcases C99_accepted (K := K) (float := float) (P := convertParser) (sig := convertSig) (by simp [scripts]) argv with
    ⟨e, he⟩ | ⟨g, hg, hv⟩
  · rw [he] at h; cases h
  · rw [hg] at h
    injection h with h
    have h1 := hv convertParser.opts[1] (by simp [convertParser]) (by decide)
    have h2 := hv convertParser.opts[2] (by simp [convertParser]) (by decide)
    have h3 := hv convertParser.opts[3] (by simp [convertParser]) (by decide)
    have h4 := hv convertParser.opts[4] (by simp [convertParser]) (by decide)
    obtain ⟨i, hi, _⟩ := (h1.resolve_right (by rintro ⟨h, _⟩; revert h; decide)).one rfl
    obtain ⟨o, ho⟩ : ∃ o, g (Str.lit "output_filename") = .str o := by
      rcases h2 with h2 | ⟨_, h2⟩
      · obtain ⟨o, ho, _⟩ := h2.one rfl; exact ⟨o, ho⟩
      · exact ⟨_, h2⟩
    obtain ⟨f, hf, hf'⟩ : ∃ f : Option Str, g (Str.lit "format") = (f.map .str).getD .none ∧
        ∀ w, f = some w → w = Str.lit "txt" ∨ w = Str.lit "hdf5" := by
      rcases h3 with h3 | ⟨_, h3⟩
      · obtain ⟨w, hw, hc⟩ := h3.one rfl
        refine ⟨some w, hw, fun w' e => ?_⟩
        injection e with e
        subst e
        simpa using hc _ rfl
      · exact ⟨none, h3, fun w e => by cases e⟩
    obtain ⟨v, hv⟩ : ∃ v, g (Str.lit "verbose") = .bool v := by
      rcases h4 with h4 | ⟨_, h4⟩
      · exact ⟨true, h4.flag rfl⟩
      · exact ⟨false, h4⟩
    refine ⟨i, o, f, v, ?_, hf', ?_⟩
    · rw [← h]
      show [g (Str.lit "input_filename"), g (Str.lit "output_filename"), g (Str.lit "format"), g (Str.lit "verbose")] = _
      rw [ho, hf, hv]
      congr 1
    · have : (Convert.formatOf o f).lower = Str.lit "txt" ∨ (Convert.formatOf o f).lower = Str.lit "hdf5" := by
        unfold Convert.formatOf
        cases f with
        | none => simp only; split <;> [right; left] <;> decide
        | some w =>
          rcases hf' w rfl with rfl | rfl
          · left; show (Str.lit "txt").lower = _; decide
          · right; show (Str.lit "hdf5").lower = _; decide
      unfold Convert.target
      rcases this with e | e
      · exact ⟨_, if_pos e⟩
      · rw [e]; exact ⟨_, rfl⟩

/-- **C99, minimization.** If `manager` of `magnopy-minimize-energy` runs, then it gets the name of a file, a known format or none,
known types of ground states (or "all"), three numbers or none as the magnetic field and a name; the choice of the types does not
raise. -/
theorem C99_minimize (argv : List Str) (args : List (Value K)) (h : run minimizeParser minimizeSig float argv = .call args) :
    ∃ (i : Str) (f : Option Str) (g : Option (List Str)) (m : Option (List K)) (s : Str),
      args = [.str i, (f.map .str).getD .none, (g.map .strs).getD (.str (Str.lit "all")), (m.map .nums).getD .none, .str s] ∧
      (∀ w, f = some w → w = Str.lit "txt" ∨ w = Str.lit "hdf5" ∨ w = Str.lit "tb2j") ∧
      (∀ l, g = some l → ∀ w ∈ l, w = Str.lit "all" ∨ w ∈ Minimize.allTypes) ∧ (∀ l, m = some l → l.length = 3) ∧
      ∃ l, Minimize.selected ((g.map .list).getD (.str (Str.lit "all"))) = .ok l ∧ ∀ w ∈ l, w ∈ Minimize.allTypes := by
  rcases C99_accepted (K := K) (float := float) (P := minimizeParser) (sig := minimizeSig) (by simp [scripts]) argv with
    ⟨e, he⟩ | ⟨a, hg, hv⟩
  · rw [he] at h; cases h
  · rw [hg] at h
    injection h with h
    have h1 := hv minimizeParser.opts[1] (by simp [minimizeParser]) (by decide)
    have h2 := hv minimizeParser.opts[2] (by simp [minimizeParser]) (by decide)
    have h3 := hv minimizeParser.opts[3] (by simp [minimizeParser]) (by decide)
    have h4 := hv minimizeParser.opts[4] (by simp [minimizeParser]) (by decide)
    have h5 := hv minimizeParser.opts[5] (by simp [minimizeParser]) (by decide)
    obtain ⟨i, hi, _⟩ := (h1.resolve_right (by rintro ⟨h, _⟩; revert h; decide)).one rfl
    obtain ⟨f, hf, hf'⟩ : ∃ f : Option Str, a (Str.lit "spinham_format") = (f.map .str).getD .none ∧
        ∀ w, f = some w → w = Str.lit "txt" ∨ w = Str.lit "hdf5" ∨ w = Str.lit "tb2j" := by
      rcases h2 with h2 | ⟨_, h2⟩
      · obtain ⟨w, hw, hc⟩ := h2.one rfl
        refine ⟨some w, hw, fun w' e => ?_⟩
        injection e with e
        subst e
        simpa using hc _ rfl
      · exact ⟨none, h2, fun w e => by cases e⟩
    obtain ⟨g, hg, hg'⟩ : ∃ g : Option (List Str), a (Str.lit "ground_state_type") = (g.map .strs).getD (.str (Str.lit "all")) ∧
        ∀ l, g = some l → ∀ w ∈ l, w = Str.lit "all" ∨ w ∈ Minimize.allTypes := by
      rcases h3 with h3 | ⟨_, h3⟩
      · obtain ⟨l, hl, hc⟩ := h3.many rfl
        refine ⟨some l, hl, fun l' e w hw => ?_⟩
        injection e with e
        subst e
        simpa [Minimize.allTypes] using hc w hw _ rfl
      · exact ⟨none, h3, fun w e => by cases e⟩
    obtain ⟨m, hm, hm'⟩ : ∃ m : Option (List K), a (Str.lit "magnetic_field") = (m.map .nums).getD .none ∧
        ∀ l, m = some l → l.length = 3 := by
      rcases h4 with h4 | ⟨_, h4⟩
      · obtain ⟨l, hl, hc⟩ := h4.three rfl
        exact ⟨some l, hl, fun l' e => by injection e with e; subst e; exact hc⟩
      · exact ⟨none, h4, fun w e => by cases e⟩
    obtain ⟨s, hs⟩ : ∃ s, a (Str.lit "output_seedname") = .str s := by
      rcases h5 with h5 | ⟨_, h5⟩
      · obtain ⟨o, ho, _⟩ := h5.one rfl; exact ⟨o, ho⟩
      · exact ⟨_, h5⟩
    refine ⟨i, f, g, m, s, ?_, hf', hg', hm', ?_⟩
    · rw [← h]
      show [a (Str.lit "spinham"), a (Str.lit "spinham_format"), a (Str.lit "ground_state_type"), a (Str.lit "magnetic_field"),
        a (Str.lit "output_seedname")] = _
      rw [hf, hg, hm, hs]
      congr 1
    · cases g with
      | none => exact ⟨Minimize.allTypes, by decide, fun w hw => hw⟩
      | some l =>
        refine ⟨_, rfl, fun w hw => ?_⟩
        split_ifs at hw with hall
        · exact hw
        · exact (hg' l rfl w hw).resolve_left fun e => hall (e ▸ hw)

/-- **C99, dispersion.** If `manager` of `magnopy-magnon-dispersion` runs, then its arguments have the types that it expects. -/
theorem C99_dispersion (argv : List Str) (args : List (Value K)) (h : run dispersionParser dispersionSig float argv = .call args) :
    ∃ (i : Str) (f : Option Str) (s : Str) (k : Option (List Str)) (p : Option Str) (b : Fin 4 → Bool),
      args = [.str i, (f.map .str).getD .none, .str s, (k.map .strs).getD .none, (p.map .str).getD .none, .bool (b 0), .bool (b 1),
        .bool (b 2), .bool (b 3)] ∧
      (∀ w, f = some w → w = Str.lit "txt" ∨ w = Str.lit "hdf5" ∨ w = Str.lit "tb2j") := by
  rcases C99_accepted (K := K) (float := float) (P := dispersionParser) (sig := dispersionSig) (by simp [scripts]) argv with
    ⟨e, he⟩ | ⟨a, hg, hv⟩
  · rw [he] at h; cases h
  · rw [hg] at h
    injection h with h
    have h1 := hv dispersionParser.opts[1] (by simp [dispersionParser]) (by decide)
    have h2 := hv dispersionParser.opts[2] (by simp [dispersionParser]) (by decide)
    have h3 := hv dispersionParser.opts[3] (by simp [dispersionParser]) (by decide)
    have h4 := hv dispersionParser.opts[4] (by simp [dispersionParser]) (by decide)
    have h5 := hv dispersionParser.opts[5] (by simp [dispersionParser]) (by decide)
    have h6 := hv dispersionParser.opts[6] (by simp [dispersionParser]) (by decide)
    have h7 := hv dispersionParser.opts[7] (by simp [dispersionParser]) (by decide)
    have h8 := hv dispersionParser.opts[8] (by simp [dispersionParser]) (by decide)
    have h9 := hv dispersionParser.opts[9] (by simp [dispersionParser]) (by decide)
    obtain ⟨i, hi, _⟩ := (h1.resolve_right (by rintro ⟨h, _⟩; revert h; decide)).one rfl
    obtain ⟨f, hf, hf'⟩ : ∃ f : Option Str, a (Str.lit "spinham_format") = (f.map .str).getD .none ∧
        ∀ w, f = some w → w = Str.lit "txt" ∨ w = Str.lit "hdf5" ∨ w = Str.lit "tb2j" := by
      rcases h2 with h2 | ⟨_, h2⟩
      · obtain ⟨w, hw, hc⟩ := h2.one rfl
        refine ⟨some w, hw, fun w' e => ?_⟩
        injection e with e
        subst e
        simpa using hc _ rfl
      · exact ⟨none, h2, fun w e => by cases e⟩
    obtain ⟨s, hs⟩ : ∃ s, a (Str.lit "output_seedname") = .str s := by
      rcases h3 with h3 | ⟨_, h3⟩
      · obtain ⟨o, ho, _⟩ := h3.one rfl; exact ⟨o, ho⟩
      · exact ⟨_, h3⟩
    obtain ⟨k, hk⟩ : ∃ k : Option (List Str), a (Str.lit "k_points") = (k.map .strs).getD .none := by
      rcases h4 with h4 | ⟨_, h4⟩
      · obtain ⟨l, hl, _⟩ := h4.many rfl; exact ⟨some l, hl⟩
      · exact ⟨none, h4⟩
    obtain ⟨p, hp⟩ : ∃ p : Option Str, a (Str.lit "k_path") = (p.map .str).getD .none := by
      rcases h5 with h5 | ⟨_, h5⟩
      · obtain ⟨w, hw, _⟩ := h5.one rfl; exact ⟨some w, hw⟩
      · exact ⟨none, h5⟩
    obtain ⟨b6, hb6⟩ : ∃ v, a (Str.lit "save_txt") = .bool v := by
      rcases h6 with h6 | ⟨_, h6⟩
      · exact ⟨true, h6.flag rfl⟩
      · exact ⟨false, h6⟩
    obtain ⟨b7, hb7⟩ : ∃ v, a (Str.lit "interactive") = .bool v := by
      rcases h7 with h7 | ⟨_, h7⟩
      · exact ⟨true, h7.flag rfl⟩
      · exact ⟨false, h7⟩
    obtain ⟨b8, hb8⟩ : ∃ v, a (Str.lit "verbose") = .bool v := by
      rcases h8 with h8 | ⟨_, h8⟩
      · exact ⟨true, h8.flag rfl⟩
      · exact ⟨false, h8⟩
    obtain ⟨b9, hb9⟩ : ∃ v, a (Str.lit "join_output") = .bool v := by
      rcases h9 with h9 | ⟨_, h9⟩
      · exact ⟨true, h9.flag rfl⟩
      · exact ⟨false, h9⟩
    refine ⟨i, f, s, k, p, ![b6, b7, b8, b9], ?_, hf'⟩
    rw [← h]
    show [a (Str.lit "spinham"), a (Str.lit "spinham_format"), a (Str.lit "output_seedname"), a (Str.lit "k_points"),
      a (Str.lit "k_path"), a (Str.lit "save_txt"), a (Str.lit "interactive"), a (Str.lit "verbose"), a (Str.lit "join_output")] = _
    rw [hf, hs, hk, hp, hb6, hb7, hb8, hb9]
    congr 1

/-! ### `magnopy` -/

theorem main_flags : Flags mainParser (Str.lit "command", [Str.lit "logo", Str.lit "warranty", Str.lit "conditions", Str.lit "version"]) where
  good := main_good
  pos := rfl
  kinds := by decide
  choices := by decide

/-- **C99, `magnopy`.** Every command line that is accepted prints something, without an exception: the logo, the warranty or the
conditions exactly if this word is among the arguments, the version if this word is among them. -/
theorem C99_main (argv : List Str) (r : Except PyErr Printed) (h : mainRun argv = .ok r) :
    ∃ p, r = .ok p ∧ (p = .logo ↔ Str.lit "logo" ∈ argv) ∧ (p = .warranty ↔ Str.lit "warranty" ∈ argv) ∧
      (p = .conditions ↔ Str.lit "conditions" ∈ argv) ∧ (Str.lit "version" ∈ argv → p = .version) := by
  obtain ⟨d, hd, rfl⟩ := map_ok h
  obtain ⟨_, _, h3⟩ := parse_sound main_good hd
  have hw := fun {w : Str} => main_flags.parse hd (w := w)
  have hno : d.get? (Str.lit "command") = some .none → ∀ w ∈ [Str.lit "logo", Str.lit "warranty", Str.lit "conditions", Str.lit "version"],
      w ∉ argv := fun e w hm hm' => by
    have := hw hm hm'
    simp only at this
    rw [e] at this
    cases this
  have hone : ∀ w, d.get? (Str.lit "command") = some (.str w) →
      ∀ w' ∈ [Str.lit "logo", Str.lit "warranty", Str.lit "conditions", Str.lit "version"], w' ∈ argv → w' = w := fun w e w' hm hm' => by
    have := hw hm hm'
    simp only at this
    rw [e] at this
    injection this with this
    injection this with this
    exact this.symm
  generalize (((d.get? (Str.lit "version")).map Value.truth).getD false) = v
  generalize (((d.get? (Str.lit "git_commit")).map Value.truth).getD false) = g
  rcases h3 _ rfl with e | ⟨w, hm, ha, e⟩
  · simp only at e
    have hno := hno e
    simp only [List.mem_cons, List.not_mem_nil, or_false, forall_eq_or_imp, forall_eq] at hno
    obtain ⟨n1, n2, n3, n4⟩ := hno
    rw [e]
    cases v <;> cases g
    · exact ⟨.usage, rfl, by simp [n1], by simp [n2], by simp [n3], by simp [n4]⟩
    · exact ⟨.commit, rfl, by simp [n1], by simp [n2], by simp [n3], by simp [n4]⟩
    · exact ⟨.version, rfl, by simp [n1], by simp [n2], by simp [n3], by simp⟩
    · exact ⟨.version, rfl, by simp [n1], by simp [n2], by simp [n3], by simp⟩
  · simp only at e
    have hone := hone w e
    rw [e]
    simp only [List.mem_cons, List.not_mem_nil, or_false, forall_eq_or_imp, forall_eq] at hone hm
    obtain ⟨n1, n2, n3, n4⟩ := hone
    rcases hm with rfl | rfl | rfl | rfl
    · exact ⟨.logo, rfl, by simp [ha], by simpa using fun h => absurd (n2 h) (by decide),
        by simpa using fun h => absurd (n3 h) (by decide), fun h => absurd (n4 h) (by decide)⟩
    · exact ⟨.warranty, rfl, by simpa using fun h => absurd (n1 h) (by decide), by simp [ha],
        by simpa using fun h => absurd (n3 h) (by decide), fun h => absurd (n4 h) (by decide)⟩
    · exact ⟨.conditions, rfl, by simpa using fun h => absurd (n1 h) (by decide), by simpa using fun h => absurd (n2 h) (by decide),
        by simp [ha], fun h => absurd (n4 h) (by decide)⟩
    · exact ⟨.version, by cases v <;> rfl, by simpa using fun h => absurd (n1 h) (by decide),
        by simpa using fun h => absurd (n2 h) (by decide), by simpa using fun h => absurd (n3 h) (by decide), fun _ => rfl⟩

theorem parse_settings_pos (hP : P.Good) {l : List Setting} (hl : ∀ x ∈ l, x.Legal P float) (hg : P.Given l) :
    ∃ d, parseArgs P float (l.flatMap Setting.render) = .ok d ∧
      (∀ o ∈ P.opts, o.kind ≠ .help → d.get? o.dest = some (P.meaning float l o.dest)) ∧
      ∀ q, P.pos = some q → d.get? q.1 = some .none := by
  obtain ⟨ts, h1, h2⟩ := classify_settings hP hl
  obtain ⟨h3, h4, _, h6⟩ := foldl_apply hl (⟨initial P, [], true, false⟩ : State K)
  refine ⟨(l.foldl (Setting.apply float) ⟨initial P, [], true, false⟩).vals, ?_, ?_, ?_⟩
  · unfold parseArgs
    rw [h2]
    show (loop P float ts.length ts _).bind _ = _
    rw [loop_settings hl h1 le_rfl]
    show (if _ then _ else _) = _
    rw [if_pos]
    rw [h3]
    simp only [Bool.not_false, Bool.and_true, List.all_eq_true, List.mem_filter, decide_eq_true_eq, and_imp]
    intro o ho hreq
    obtain ⟨x, hx, rfl⟩ := hg o ho hreq
    exact (h4 _).2 (.inr ⟨x, hx, rfl⟩)
  · intro o ho hk
    have h7 : (initial P : PyDict Str (Value K)).get? o.dest = some o.default.value :=
      PyDict.get?_of_mem (nodup_initial hP) (List.mem_append_left _
        (List.mem_map.2 ⟨o, List.mem_filter.2 ⟨ho, by simpa using hk⟩, rfl⟩))
    rw [h6]
    unfold Parser.meaning
    rw [find_dest hP ho, h7]
    cases (l.reverse.find? fun x => x.opt.dest = o.dest).bind (Setting.value float) <;> rfl
  · intro q hq
    have h7 : (initial P : PyDict Str (Value K)).get? q.1 = some .none :=
      PyDict.get?_of_mem (nodup_initial hP) (List.mem_append_right _ (by rw [hq]; simp))
    have h8 : (l.reverse.find? fun x => x.opt.dest = q.1) = none := List.find?_eq_none.2 fun x hx e =>
      hP.pos q hq (List.mem_map.2 ⟨x.opt, (hl x (List.mem_reverse.1 hx)).denotes.1, by simpa using e⟩)
    rw [h6, h8, h7]
    rfl

/-- **C99, `magnopy` with options.** Options without a command print the version, if `--version` is among them, otherwise the commit,
if `--git-commit` is, and without options the usage is printed. -/
theorem C99_main_options (l : List Setting) (hl : ∀ x ∈ l, x.Legal mainParser (fun _ => (none : Option Unit))) :
    mainRun (l.flatMap Setting.render) = .ok (.ok
      (if ∃ x ∈ l, x.opt.dest = Str.lit "version" then .version
        else if ∃ x ∈ l, x.opt.dest = Str.lit "git_commit" then .commit else .usage)) := by
  obtain ⟨d, h1, h2, h3⟩ := parse_settings_pos main_good hl fun o ho hr =>
    absurd hr ((by decide : ∀ o ∈ mainParser.opts, ¬ o.required = true) o ho)
  have key : ∀ o ∈ mainParser.opts, o.kind = .flag → o.default = .no →
      (mainParser.meaning (fun _ => (none : Option Unit)) l o.dest).truth = decide (∃ x ∈ l, x.opt.dest = o.dest) := by
    intro o ho hk hd
    unfold Parser.meaning
    rw [find_dest main_good ho]
    cases hf : l.reverse.find? fun x => x.opt.dest = o.dest with
    | none =>
      have : ¬ ∃ x ∈ l, x.opt.dest = o.dest := fun ⟨x, hx, e⟩ =>
        absurd (List.find?_eq_none.1 hf x (List.mem_reverse.2 hx)) (by simpa using e)
      simp only [this, decide_false, Option.bind_none]
      rw [hd]
      rfl
    | some y =>
      have h4 := List.mem_reverse.1 (List.mem_of_find?_eq_some hf)
      have h5 := List.find?_some hf
      simp only [decide_eq_true_eq] at h5
      have h6 : y.opt = o := List.inj_on_of_nodup_map main_good.dests (hl y h4).denotes.1 ho h5
      have : ∃ x ∈ l, x.opt.dest = o.dest := ⟨y, h4, h5⟩
      simp only [this, decide_true, Option.bind_some]
      unfold Setting.value
      rw [h6, hk]
      rfl
  unfold mainRun
  rw [h1]
  have hv := h2 mainParser.opts[1] (by simp [mainParser]) (by decide)
  have hc := h2 mainParser.opts[2] (by simp [mainParser]) (by decide)
  have kv := key mainParser.opts[1] (by simp [mainParser]) rfl rfl
  have kc := key mainParser.opts[2] (by simp [mainParser]) rfl rfl
  have hp := h3 _ rfl
  change d.get? (Str.lit "version") = _ at hv
  change d.get? (Str.lit "git_commit") = _ at hc
  change d.get? (Str.lit "command") = _ at hp
  change (mainParser.meaning _ l (Str.lit "version")).truth = decide (∃ x ∈ l, x.opt.dest = Str.lit "version") at kv
  change (mainParser.meaning _ l (Str.lit "git_commit")).truth = decide (∃ x ∈ l, x.opt.dest = Str.lit "git_commit") at kc
  change d.get? _ = some (mainParser.meaning _ l (Str.lit "version")) at hv
  change d.get? _ = some (mainParser.meaning _ l (Str.lit "git_commit")) at hc
  simp only [Except.map, hv, hc, hp, Option.map_some, Option.getD_some, kv, kc, Option.bind_some, Value.str?, dispatch]
  by_cases e1 : ∃ x ∈ l, x.opt.dest = Str.lit "version" <;> by_cases e2 : ∃ x ∈ l, x.opt.dest = Str.lit "git_commit" <;> simp [e1, e2]

/-! Instances: an argument that is not an option, a missing option, the types of ground states and the field, the command. -/
example : run convertParser convertSig (some : Str → Option Str) [Str.lit "a.out"] = .stop .usage := rfl
example : run convertParser convertSig (some : Str → Option Str) [Str.lit "-v"] = .stop .usage := rfl
example : run minimizeParser minimizeSig (some : Str → Option Str) [Str.lit "-gst", Str.lit "ferro", Str.lit "spiral",
    Str.lit "--magnetic", Str.lit "0", Str.lit "0", Str.lit "-0.5", Str.lit "-sh", Str.lit "a.txt"] =
    .call [.str (Str.lit "a.txt"), .none, .strs [Str.lit "ferro", Str.lit "spiral"],
      .nums [Str.lit "0", Str.lit "0", Str.lit "-0.5"], .str (Str.lit "minim")] := rfl
example : run dispersionParser dispersionSig (some : Str → Option Str) [Str.lit "-i", Str.lit "-sha"] = .stop .usage := rfl
example : run dispersionParser dispersionSig (some : Str → Option Str) [Str.lit "-i", Str.lit "-sh", Str.lit "a", Str.lit "-jo"] =
    .call [.str (Str.lit "a"), .none, .str (Str.lit "dispersion"), .none, .none, .bool false, .bool true, .bool false, .bool true] := rfl
example : mainRun [Str.lit "-v", Str.lit "logo"] = .ok (.ok .logo) := rfl
example : mainRun [Str.lit "-gc"] = .ok (.ok .commit) := rfl

end Cli
end Magnopy
