import Verif.Model.Basic
import Verif.Model.PyDict
import Verif.Model.Text

/-!
# The command lines of the scripts

`create_parser` and `main` of score/convert_tb2j.py 50-89, score/minimize_energy.py 218-269, score/magnon_dispersion.py 211-289 and
`main` of `__main__.py` 25-63.  The rules by which options are found are those of `argparse` of Python 3.11 (`_parse_optional`,
`_get_option_tuples`, `_match_argument`, `consume_optional`, `consume_positionals`, `_get_values`), for parsers with options that
take no value, one value, any number of values or three numbers, and at most one positional argument with `nargs="?"`.  `float` is
an argument.  Simplified: `\d` in the pattern of negative numbers means the digits 0 to 9; texts of messages are left out.
-/

set_option autoImplicit false

namespace Magnopy
namespace Cli

/-- What an option takes. -/
inductive Kind where
  /-- `action="help"` -/
  | help
  /-- `action="store_true"` -/
  | flag
  /-- one string -/
  | one
  /-- `nargs="*"` -/
  | many
  /-- `type=float, nargs=3` -/
  | three
  deriving DecidableEq, Repr

/-- A value of an attribute of `args`. -/
inductive Value (K : Type) where
  | none
  | bool (b : Bool)
  | str (s : Str)
  | strs (l : List Str)
  | nums (l : List K)

/-- A default value. -/
inductive Default where
  | none
  | no
  | str (s : Str)
  deriving DecidableEq, Repr

/-- The value of a default. -/
def Default.value {K : Type} : Default → Value K
  | .none => .none
  | .no => .bool false
  | .str s => .str s

/-- An option, as given to `add_argument`. -/
structure Opt where
  /-- the name with one dash -/
  short : Str
  /-- the name with two dashes -/
  long : Str
  /-- the name of the attribute: the long name without the dashes in front, with `_` for `-` -/
  dest : Str
  /-- what it takes -/
  kind : Kind
  /-- `choices` -/
  choices : Option (List Str) := .none
  /-- `required` -/
  required : Bool := false
  /-- `default` -/
  default : Default := .none
  deriving DecidableEq, Repr

/-- Both names. -/
def Opt.names (o : Opt) : List Str := [o.short, o.long]

/-- A parser: its options (with `--help`) and the positional argument with `nargs="?"`: its name and its choices. -/
structure Parser where
  /-- the options -/
  opts : List Opt
  /-- the positional argument -/
  pos : Option (Str × List Str) := .none
  deriving DecidableEq, Repr

/-- `-h`, `--help`; every parser has it. -/
def help : Opt := ⟨Str.lit "-h", Str.lit "--help", Str.lit "help", .help, .none, false, .none⟩

/-- `parser._option_string_actions`. -/
def Parser.table (P : Parser) : PyDict Str Opt := P.opts.flatMap fun o => o.names.map fun n => (n, o)

/-- How parsing stops. -/
inductive Stop where
  /-- a message and exit code 2 -/
  | usage
  /-- the help and exit code 0 -/
  | helped
  deriving DecidableEq, Repr

/-- An argument: part of the values (`A`), the first `--` (`-`), or an option (`O`) with its name, and the text behind it (with `true`, if `=` is
between). -/
inductive Tok where
  | arg
  | dashes
  | opt (o : Option Opt) (name : Str) (explicit : Option (Bool × Str))
  deriving DecidableEq, Repr

/-- `s.partition('=')`: the text before and after the first `=`. -/
def splitEq (s : Str) : Option (Str × Str) :=
  match s.dropWhile (· != '=') with
  | [] => none
  | _ :: v => some (s.takeWhile (· != '='), v)

/-- `'^-\d+$|^-\d*\.\d+$'`. -/
def negative : Str → Bool
  | '-' :: s =>
    match s.dropWhile Char.isDigit with
    | [] => s != []
    | '.' :: t => t != [] && t.all Char.isDigit
    | _ :: _ => false
  | _ => false

/-- `_get_option_tuples`: abbreviations of long names, and one-letter options with text behind them. -/
def optionTuples (P : Parser) (s : Str) : List (Opt × Str × Option (Bool × Str)) :=
  match s with
  | '-' :: '-' :: _ =>
    match splitEq s with
    | some (p, v) => (P.table.filter fun e => e.1.startsWith p).map fun e => (e.2, e.1, some (true, v))
    | none => (P.table.filter fun e => e.1.startsWith s).map fun e => (e.2, e.1, none)
  | '-' :: c :: v =>
    P.table.filterMap fun e =>
      if e.1 = ['-', c] then some (e.2, e.1, some (false, v)) else if e.1.startsWith s then some (e.2, e.1, none) else none
  | _ => []

/-- `_parse_optional`. -/
def parseOptional (P : Parser) (s : Str) : Except Stop Tok :=
  match s with
  | [] => .ok .arg
  | c :: _ =>
    if c ≠ '-' then .ok .arg
    else
      match P.table.get? s with
      | some o => .ok (.opt (some o) s none)
      | none =>
        if s.length = 1 then .ok .arg
        else
          match (splitEq s).bind fun q => (P.table.get? q.1).map fun o => (o, q) with
          | some (o, n, v) => .ok (.opt (some o) n (some (true, v)))
          | none =>
            match optionTuples P s with
            | _ :: _ :: _ => .error .usage
            | [(o, n, v)] => .ok (.opt (some o) n v)
            | [] =>
              if negative s then .ok .arg
              else if ' ' ∈ s then .ok .arg
              else .ok (.opt none s none)

/-- All arguments; everything behind the first `--` is a value. -/
def classify (P : Parser) : List Str → Except Stop (List (Str × Tok))
  | [] => .ok []
  | s :: l =>
    if s = ['-', '-'] then .ok ((s, .dashes) :: l.map fun w => (w, .arg))
    else
      match parseOptional P s with
      | .error e => .error e
      | .ok t => (classify P l).map fun r => (s, t) :: r

/-- The attributes, the options that were seen, whether the positional argument is still to come, and whether an argument was not
recognised. -/
structure State (K : Type) where
  /-- `namespace` -/
  vals : PyDict Str (Value K)
  /-- `seen_actions`: the attributes -/
  seen : List Str := []
  /-- `positionals` -/
  pending : Bool := true
  /-- `extras` is not empty -/
  extras : Bool := false

variable {K : Type}

/-- `_check_value`. -/
def checked (choices : Option (List Str)) (w : Str) : Bool :=
  match choices with
  | none => true
  | some c => Str.mem w c

/-- `_get_values`: the strings are converted and compared with the choices. -/
def getValues (float : Str → Option K) (o : Opt) (ws : List Str) : Except Stop (Value K) :=
  match o.kind with
  | .help => .error .helped
  | .flag => .ok (.bool true)
  | .one =>
    match ws with
    | [w] => if checked o.choices w then .ok (.str w) else .error .usage
    | _ => .error .usage
  | .many => if ws.all (checked o.choices) then .ok (.strs ws) else .error .usage
  | .three =>
    match ws.mapM float with
    | some l => .ok (.nums l)
    | none => .error .usage

/-- `take_action`. -/
def take (float : Str → Option K) (o : Opt) (words : List Str) (s : State K) : Except Stop (State K) :=
  (getValues float o words).map fun v => { s with vals := s.vals.set o.dest v, seen := o.dest :: s.seen }

/-- The number of values in front of the next option: `_match_argument` on the rest of the pattern. -/
def count (k : Kind) (rest : List (Str × Tok)) : Except Stop ℕ :=
  let n := (rest.takeWhile fun e => e.2 = .arg).length
  match k with
  | .help => .ok 0
  | .flag => .ok 0
  | .one => if 1 ≤ n then .ok 1 else .error .usage
  | .many => .ok n
  | .three => if 3 ≤ n then .ok 3 else .error .usage

/-- The branch `explicit_arg is not None` of `consume_optional`: options with one dash that take nothing can be written together
(`-vi`).  The result is the list of options without values, and the last option with its text, if there is one; there is no last
option if a letter is not known. -/
def cluster (P : Parser) : Opt → Str → Bool → Str → Except Stop (List Opt × Option (Opt × Option Str))
  | o, name, sep, v =>
    match o.kind with
    | .one => .ok ([], some (o, some v))
    | .many => .ok ([], some (o, some v))
    | .three => .error .usage
    | _ =>
      if name.getD 1 '-' = '-' then .error .usage
      else
        match v with
        | [] => .error .usage
        | c :: v' =>
          if sep || c == '-' then .error .usage
          else
            match P.table.get? ['-', c] with
            | none => .ok ([o], none)
            | some o' =>
              match v' with
              | [] => .ok ([o], some (o', none))
              | d :: v'' =>
                if d = '=' then (cluster P o' ['-', c] true v'').map fun r => (o :: r.1, r.2)
                else (cluster P o' ['-', c] false (d :: v'')).map fun r => (o :: r.1, r.2)
termination_by _ _ _ v => v.length

/-- `take_action` for options without values. -/
def takeAll (float : Str → Option K) : List Opt → State K → Except Stop (State K)
  | [], s => .ok s
  | o :: os, s => (take float o [] s).bind (takeAll float os)

/-- `consume_positionals` at an argument which is no option: the pattern is `-*A?-*`.  The result are the strings, at most two. -/
def positional : List (Str × Tok) → List Str
  | (w, .arg) :: (x, .dashes) :: _ => [w, x]
  | (w, .arg) :: _ => [w]
  | (w, .dashes) :: (x, .arg) :: _ => [w, x]
  | (w, .dashes) :: _ => [w]
  | _ => []

/-- The positional argument gets its value; without a string it keeps the default `None`. -/
def takePositional (q : Str × List Str) (words : List Str) (s : State K) : Except Stop (State K) :=
  match words.erase ['-', '-'] with
  | [] => .ok { s with pending := false, vals := s.vals.set q.1 .none }
  | w :: _ => if Str.mem w q.2 then .ok { s with pending := false, vals := s.vals.set q.1 (.str w) } else .error .usage

/-- The loop of `_parse_known_args`; `fuel` is at least the number of arguments. -/
def loop (P : Parser) (float : Str → Option K) : ℕ → List (Str × Tok) → State K → Except Stop (State K)
  | 0, _, s => .ok s
  | _, [], s => .ok s
  | fuel + 1, (w, .opt o name explicit) :: rest, s =>
    match o, explicit with
    | none, _ => loop P float fuel rest { s with extras := true }
    | some o, none =>
      (count o.kind rest).bind fun n =>
        (take float o ((rest.take n).map Prod.fst) s).bind fun s => loop P float fuel (rest.drop n) s
    | some o, some (sep, v) =>
      (cluster P o name sep v).bind fun r =>
        match r.2 with
        | some (o', some v) => ((takeAll float r.1 s).bind (take float o' [v])).bind (loop P float fuel rest)
        | some (o', none) =>
          (count o'.kind rest).bind fun n =>
            ((takeAll float r.1 s).bind (take float o' ((rest.take n).map Prod.fst))).bind (loop P float fuel (rest.drop n))
        | none => (takeAll float r.1 s).bind fun s => loop P float fuel rest { s with extras := true }
  | fuel + 1, (w, t) :: rest, s =>
    match P.pos with
    | some q =>
      if s.pending then
        let ws := positional ((w, t) :: rest)
        (takePositional q ws s).bind (loop P float fuel (((w, t) :: rest).drop ws.length))
      else loop P float fuel rest { s with extras := true }
    | none => loop P float fuel rest { s with extras := true }

/-- The attributes before parsing: the defaults. -/
def initial (P : Parser) : PyDict Str (Value K) :=
  (P.opts.filter fun o => o.kind ≠ .help).map (fun o => (o.dest, o.default.value)) ++
    (match P.pos with | some q => [(q.1, .none)] | none => [])

/-- `parser.parse_args(argv)`. -/
def parseArgs (P : Parser) (float : Str → Option K) (argv : List Str) : Except Stop (PyDict Str (Value K)) :=
  (classify P argv).bind fun l =>
    (loop P float l.length l ⟨initial P, [], true, false⟩).bind fun s =>
      if (P.opts.filter fun o => o.required).all (fun o => decide (o.dest ∈ s.seen)) && !s.extras then .ok s.vals
      else .error .usage

/-! ### The scripts -/

/-- The parameters of `manager`, in their order, with the default values (`none`: no default). -/
abbrev Signature := List (Str × Option Default)

/-- `manager(**vars(args))`: an unknown name, or a parameter without a value, is a `TypeError`. -/
def bind (sig : Signature) (d : PyDict Str (Value K)) : Except PyErr (List (Value K)) :=
  if d.keys.all fun k => decide (k ∈ sig.map Prod.fst) then
    sig.mapM fun p =>
      match d.get? p.1, p.2 with
      | some v, _ => .ok v
      | none, some v => .ok v.value
      | none, none => .error .typeError
  else .error .typeError

/-- What a script does. -/
inductive Outcome (K : Type) where
  /-- it stops before `manager` -/
  | stop (e : Stop)
  /-- `manager(**vars(args))` does not fit -/
  | raise (e : PyErr)
  /-- `manager` runs with these values, in the order of its parameters -/
  | call (args : List (Value K))

/-- `main`, convert_tb2j.py 85-89, minimize_energy.py 265-269, magnon_dispersion.py 285-289. -/
def run (P : Parser) (sig : Signature) (float : Str → Option K) (argv : List Str) : Outcome K :=
  match parseArgs P float argv with
  | .error e => .stop e
  | .ok d =>
    match bind sig d with
    | .error e => .raise e
    | .ok l => .call l

/-- `create_parser`, convert_tb2j.py 50-82. -/
def convertParser : Parser where
  opts := [help,
    { short := Str.lit "-if", long := Str.lit "--input-filename", dest := Str.lit "input_filename", kind := .one, required := true },
    { short := Str.lit "-of", long := Str.lit "--output-filename", dest := Str.lit "output_filename", kind := .one,
      default := .str (Str.lit "spinham.txt") },
    { short := Str.lit "-f", long := Str.lit "--format", dest := Str.lit "format", kind := .one,
      choices := some [Str.lit "txt", Str.lit "hdf5"] },
    { short := Str.lit "-v", long := Str.lit "--verbose", dest := Str.lit "verbose", kind := .flag, default := .no }]

/-- `manager`, convert_tb2j.py 27. -/
def convertSig : Signature := [(Str.lit "input_filename", none), (Str.lit "output_filename", some (.str (Str.lit "spinham.txt"))),
  (Str.lit "format", some .none), (Str.lit "verbose", some .no)]

/-- `create_parser`, minimize_energy.py 218-262. -/
def minimizeParser : Parser where
  opts := [help,
    { short := Str.lit "-sh", long := Str.lit "--spinham", dest := Str.lit "spinham", kind := .one, required := true },
    { short := Str.lit "-shf", long := Str.lit "--spinham-format", dest := Str.lit "spinham_format", kind := .one,
      choices := some [Str.lit "txt", Str.lit "hdf5", Str.lit "tb2j"] },
    { short := Str.lit "-gst", long := Str.lit "--ground-state-type", dest := Str.lit "ground_state_type", kind := .many,
      choices := some [Str.lit "all", Str.lit "ferro", Str.lit "antiferro", Str.lit "spiral"], default := .str (Str.lit "all") },
    { short := Str.lit "-mf", long := Str.lit "--magnetic_field", dest := Str.lit "magnetic_field", kind := .three },
    { short := Str.lit "-os", long := Str.lit "--output-seedname", dest := Str.lit "output_seedname", kind := .one,
      default := .str (Str.lit "minim") }]

/-- `manager`, minimize_energy.py 148-154. -/
def minimizeSig : Signature := [(Str.lit "spinham", none), (Str.lit "spinham_format", some .none),
  (Str.lit "ground_state_type", some .none), (Str.lit "magnetic_field", some .none),
  (Str.lit "output_seedname", some (.str (Str.lit "minim")))]

/-- `create_parser`, magnon_dispersion.py 211-282. -/
def dispersionParser : Parser where
  opts := [help,
    { short := Str.lit "-sh", long := Str.lit "--spinham", dest := Str.lit "spinham", kind := .one, required := true },
    { short := Str.lit "-shf", long := Str.lit "--spinham-format", dest := Str.lit "spinham_format", kind := .one,
      choices := some [Str.lit "txt", Str.lit "hdf5", Str.lit "tb2j"] },
    { short := Str.lit "-os", long := Str.lit "--output-seedname", dest := Str.lit "output_seedname", kind := .one,
      default := .str (Str.lit "dispersion") },
    { short := Str.lit "-kps", long := Str.lit "--k-points", dest := Str.lit "k_points", kind := .many },
    { short := Str.lit "-kp", long := Str.lit "--k-path", dest := Str.lit "k_path", kind := .one },
    { short := Str.lit "-st", long := Str.lit "--save-txt", dest := Str.lit "save_txt", kind := .flag, default := .no },
    { short := Str.lit "-i", long := Str.lit "--interactive", dest := Str.lit "interactive", kind := .flag, default := .no },
    { short := Str.lit "-v", long := Str.lit "--verbose", dest := Str.lit "verbose", kind := .flag, default := .no },
    { short := Str.lit "-jo", long := Str.lit "--join-output", dest := Str.lit "join_output", kind := .flag, default := .no }]

/-- `manager`, magnon_dispersion.py 35-45. -/
def dispersionSig : Signature := [(Str.lit "spinham", none), (Str.lit "spinham_format", some .none),
  (Str.lit "output_seedname", some (.str (Str.lit "dispersion"))), (Str.lit "k_points", some .none), (Str.lit "k_path", some .none),
  (Str.lit "save_txt", some .no), (Str.lit "interactive", some .no), (Str.lit "verbose", some .no), (Str.lit "join_output", some .no)]

/-- The parser of `__main__.py` 26-48. -/
def mainParser : Parser where
  opts := [help,
    { short := Str.lit "-v", long := Str.lit "--version", dest := Str.lit "version", kind := .flag, default := .no },
    { short := Str.lit "-gc", long := Str.lit "--git-commit", dest := Str.lit "git_commit", kind := .flag, default := .no }]
  pos := some (Str.lit "command", [Str.lit "logo", Str.lit "warranty", Str.lit "conditions", Str.lit "version"])

/-- What `magnopy` prints. -/
inductive Printed where
  | logo | warranty | conditions | version | commit | usage
  deriving DecidableEq, Repr

/-- The end of `main`, `__main__.py` 49-63. -/
def dispatch (command : Option Str) (version commit : Bool) : Except PyErr Printed :=
  if command = some (Str.lit "logo") then .ok .logo
  else if command = some (Str.lit "warranty") then .ok .warranty
  else if command = some (Str.lit "conditions") then .ok .conditions
  else if command = some (Str.lit "version") ∨ version then .ok .version
  else if commit then .ok .commit
  else if command = none then .ok .usage
  else .error .valueError

/-- The string of a value. -/
def Value.str? : Value K → Option Str
  | .str s => Option.some s
  | _ => Option.none

/-- Truth of a value. -/
def Value.truth : Value K → Bool
  | .none => false
  | .bool b => b
  | .str s => s != []
  | .strs l => !l.isEmpty
  | .nums l => !l.isEmpty

/-- `main`, `__main__.py` 25-63. -/
def mainRun (argv : List Str) : Except Stop (Except PyErr Printed) :=
  (parseArgs (K := Unit) mainParser (fun _ => none) argv).map fun d =>
    dispatch ((d.get? (Str.lit "command")).bind Value.str?) (((d.get? (Str.lit "version")).map Value.truth).getD false)
      (((d.get? (Str.lit "git_commit")).map Value.truth).getD false)

end Cli
end Magnopy
