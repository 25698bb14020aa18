import Verif.Model.Cli

/-!
# Specification: command lines
-/

set_option autoImplicit false

namespace Magnopy
namespace Cli

variable {K : Type}

/-- Names of options start with one or two dashes, contain no `=` and do not look like numbers; all names and all attributes are
different. -/
structure Parser.Good (P : Parser) : Prop where
  keys : (P.opts.flatMap Opt.names).Nodup
  dests : (P.opts.map Opt.dest).Nodup
  eq : ∀ o ∈ P.opts, ∀ n ∈ o.names, '=' ∉ n
  short : ∀ o ∈ P.opts, ∃ c l, o.short = '-' :: c :: l ∧ c ≠ '-' ∧ c ≠ '.' ∧ c.isDigit = false
  long : ∀ o ∈ P.opts, ∃ c l, o.long = '-' :: '-' :: c :: l
  pos : ∀ q, P.pos = some q → q.1 ∉ P.opts.map Opt.dest

/-- A part of a command line: an option, its name as it is written, whether the value is behind `=`, and the values. -/
structure Setting where
  /-- the option -/
  opt : Opt
  /-- its name -/
  name : Str
  /-- `name=value` -/
  eq : Bool
  /-- the values -/
  words : List Str

/-- The arguments. -/
def Setting.render (x : Setting) : List Str :=
  if x.eq then x.words.map fun w => x.name ++ '=' :: w else x.name :: x.words

/-- The name is one of the two names of the option, or the beginning of its long name and of no other name. -/
def Parser.Denotes (P : Parser) (name : Str) (o : Opt) : Prop :=
  o ∈ P.opts ∧ (name ∈ o.names ∨ (∃ c l, name = '-' :: '-' :: c :: l) ∧ '=' ∉ name ∧
    ∀ o' ∈ P.opts, ∀ n ∈ o'.names, (name <+: n ↔ n = o.long))

/-- A decimal number with a minus sign and without an exponent. -/
def Negative (w : Str) : Prop :=
  (∃ a : Str, a ≠ [] ∧ (∀ c ∈ a, c.isDigit) ∧ w = '-' :: a) ∨
    ∃ a b : Str, b ≠ [] ∧ (∀ c ∈ a, c.isDigit) ∧ (∀ c ∈ b, c.isDigit) ∧ w = '-' :: (a ++ '.' :: b)

/-- A value that can be written behind the name of an option. -/
def Plain (w : Str) : Prop := w.head? ≠ some '-' ∨ w = ['-'] ∨ Negative w

/-- The number of values. -/
def Kind.Takes : Kind → ℕ → Prop
  | .help, _ => False
  | .flag, n => n = 0
  | .one, n => n = 1
  | .many, _ => True
  | .three, n => n = 3

/-- What the setting means. -/
def Setting.value (float : Str → Option K) (x : Setting) : Option (Value K) :=
  match x.opt.kind with
  | .help => none
  | .flag => some (.bool true)
  | .one => x.words.head?.map .str
  | .many => some (.strs x.words)
  | .three => (x.words.mapM float).map .nums

/-- A setting as the user means it: the number of values fits, they are among the choices, and numbers are numbers. -/
structure Setting.Meant (P : Parser) (float : Str → Option K) (x : Setting) : Prop where
  denotes : P.Denotes x.name x.opt
  takes : x.opt.kind.Takes x.words.length
  eq : x.eq = true → (x.opt.kind = .one ∨ x.opt.kind = .many) ∧ x.words.length = 1
  choices : ∀ c, x.opt.choices = some c → ∀ w ∈ x.words, w ∈ c
  numbers : x.opt.kind = .three → ∀ w ∈ x.words, (float w).isSome

/-- A setting as the user has to write it: values without `=` do not look like options. -/
structure Setting.Legal (P : Parser) (float : Str → Option K) (x : Setting) : Prop extends x.Meant P float where
  plain : x.eq = false → ∀ w ∈ x.words, Plain w

/-- Every option that is required is there. -/
def Parser.Given (P : Parser) (l : List Setting) : Prop := ∀ o ∈ P.opts, o.required = true → ∃ x ∈ l, x.opt = o

/-- The three scripts with options. -/
def scripts : List (Parser × Signature) :=
  [(convertParser, convertSig), (minimizeParser, minimizeSig), (dispersionParser, dispersionSig)]

/-- The value of an attribute: that of the last setting of it, otherwise the default of the parser. -/
def Parser.meaning (P : Parser) (float : Str → Option K) (l : List Setting) (dest : Str) : Value K :=
  match (l.reverse.find? fun x => x.opt.dest = dest).bind (Setting.value float) with
  | some v => v
  | none =>
    match P.opts.find? fun o => o.dest = dest with
    | some o => o.default.value
    | none => .none

/-- Arguments that cannot be meant. -/
inductive Parser.Refuses (P : Parser) : List Str → Prop
  /-- more words behind an option than it takes -/
  | words (a b ws : List Str) (name : Str) (o : Opt) (m : ℕ) : P.Denotes name o → o.kind ≠ .many → o.kind.Takes m → m < ws.length →
      (∀ w ∈ ws, Plain w) → P.Refuses (a ++ name :: (ws ++ b))
  /-- fewer words behind an option than it takes -/
  | few (a b ws : List Str) (name : Str) (o : Opt) (m : ℕ) : P.Denotes name o → o.kind ≠ .many → o.kind.Takes m → ws.length < m →
      (∀ w ∈ ws, Plain w) → (∀ w ∈ b.head?, ∃ o', P.Denotes w o') → P.Refuses (a ++ name :: (ws ++ b))
  /-- a word behind `name=value` -/
  | eq (a b : List Str) (name v w : Str) (o : Opt) : P.Denotes name o → o.kind = .one ∨ o.kind = .many → Plain w →
      P.Refuses (a ++ (name ++ '=' :: v) :: w :: b)
  /-- a word in front of all options -/
  | first (w : Str) (b : List Str) : Plain w → P.Refuses (w :: b)
  /-- `--` -/
  | dashes (l : List Str) : ['-', '-'] ∈ l → P.Refuses l
  /-- the beginning of two long names -/
  | ambiguous (l : List Str) (name : Str) (o o' : Opt) : name ∈ l → (∃ c t, name = '-' :: '-' :: c :: t) → '=' ∉ name → o ∈ P.opts →
      o' ∈ P.opts → o.long ≠ o'.long → name <+: o.long → name <+: o'.long → (∀ x ∈ P.opts, name ∉ x.names) → P.Refuses l
  /-- an option that does not exist -/
  | unknown (l : List Str) (w : Str) (c : Char) (t : Str) : w ∈ l → w = '-' :: c :: t → c ≠ '.' → c.isDigit = false → '=' ∉ w → ' ' ∉ w →
      (∀ o ∈ P.opts, ∀ n ∈ o.names, ¬ n <+: w ∧ ¬ w <+: n) → P.Refuses l

/-- A value that comes from the arguments: allowed by the choices, and made of the ends of arguments. -/
def Opt.Allows (o : Opt) (float : Str → Option K) (argv : List Str) : Value K → Prop
  | .none => False
  | .bool b => o.kind = .flag ∧ b = true
  | .str w => o.kind = .one ∧ (∀ c, o.choices = some c → w ∈ c) ∧ ∃ a ∈ argv, w <:+ a
  | .strs l => o.kind = .many ∧ ∀ w ∈ l, (∀ c, o.choices = some c → w ∈ c) ∧ ∃ a ∈ argv, w <:+ a
  | .nums l => o.kind = .three ∧ l.length = 3 ∧ ∀ x ∈ l, ∃ a ∈ argv, float a = some x

end Cli
end Magnopy
