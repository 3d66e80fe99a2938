import Verif.Prelude
/-
Command-line parsing (C34). Source: mllm/utils/Argparse.hpp.
The process-wide parser (`instance()`) is the pair of the declared options and of the values they hold.
`MLLM_ERROR_EXIT` ends the process: parsing then has no result, only the error. `printHelp` is not modelled.
-/
namespace Verif.Args

abbrev Tok := List Char

/-- What `Argument<T>` holds besides its value, L122-131. `conv` is `parse` (L70-90) as a function from the text to the
value or failure; `tt` is the value set by `handleFlag` (L92-99), used only for `T = bool`. -/
structure Opt (V : Type) where
  flags : List Tok
  positional : Bool
  required : Bool
  isBool : Bool
  conv : Tok → Option V
  tt : V
  dflt : V

/-- `is_set_` and `value_` of every option, by its index in `args_`. -/
abbrev Vals (V : Type) := Nat → Option V

inductive Err where
  | missingValue (t : Tok)
  | unknown (t : Tok)
  | invalid (w : Tok)
  | missingPositional
  | missingRequired (i : Nat)
  deriving DecidableEq, Repr

/-- `arg[0] == '-'`, L157 (an empty string has the terminator there). -/
def dash : Tok → Bool
  | c :: _ => c == '-'
  | [] => false

/-- The loop over `args_` of L159-174: index of the first option that has the flag. -/
def findOpt {V : Type} (opts : List (Opt V)) (t : Tok) : Option Nat := opts.findIdx? fun o => decide (t ∈ o.flags)

def setVal {V : Type} (st : Vals V) (i : Nat) (v : V) : Vals V := Function.update st i (some v)

/-- The loop over the tokens, L155-182. -/
def optLoop {V : Type} (opts : List (Opt V)) : List Tok → Vals V → List Tok → Except Err (Vals V × List Tok)
  | [], st, pos => .ok (st, pos)
  | t :: rest, st, pos =>
    if dash t then
      match findOpt opts t with
      | none => .error (.unknown t)
      | some i =>
        match opts[i]? with
        | none => .error (.unknown t)
        | some o =>
          if o.isBool then optLoop opts rest (setVal st i o.tt) pos
          else
            match rest with
            | [] => .error (.missingValue t)
            | w :: rest' =>
              match o.conv w with
              | none => .error (.invalid w)
              | some v => optLoop opts rest' (setVal st i v) pos
    else optLoop opts rest st (pos ++ [t])

/-- The loop over the positional options, L185-197; `i` is the index of the first option of the list. -/
def posLoop {V : Type} : List (Opt V) → Nat → Vals V → List Tok → Except Err (Vals V)
  | [], _, st, _ => .ok st
  | o :: os, i, st, pos =>
    if o.positional then
      match pos with
      | [] => if o.required then .error .missingPositional else posLoop os (i + 1) st []
      | w :: pos' =>
        match o.conv w with
        | none => .error (.invalid w)
        | some v => posLoop os (i + 1) (setVal st i v) pos'
    else posLoop os (i + 1) st pos

/-- L200-205. -/
def reqLoop {V : Type} : List (Opt V) → Nat → Vals V → Except Err (Vals V)
  | [], _, st => .ok st
  | o :: os, i, st => if o.required && (st i).isNone then .error (.missingRequired i) else reqLoop os (i + 1) st

/-- `Argparse::parse`, L149-206, on `argv[1..]`. -/
def parse {V : Type} (opts : List (Opt V)) (st : Vals V) (argv : List Tok) : Except Err (Vals V) :=
  match optLoop opts argv st [] with
  | .error e => .error e
  | .ok (st1, pos) =>
    match posLoop opts 0 st1 pos with
    | .error e => .error e
    | .ok st2 => reqLoop opts 0 st2

/-- `Argparse::get`, L208-220, and `Argument::get`, L117-120; `none` is the "Argument not found" exit (asking with the
wrong type is not modelled). -/
def get {V : Type} (opts : List (Opt V)) (st : Vals V) (flag : Tok) : Option V :=
  match findOpt opts flag with
  | none => none
  | some i =>
    match opts[i]? with
    | none => none
    | some o =>
      match st i with
      | some v => some v
      | none => some o.dflt

/-! ### Declaring options -/

/-- The loop of `splitFlags`, L261-267; `cur` is the text since `start`. -/
def splitLoop : Tok → Tok → List Tok
  | [], cur => if cur.isEmpty then [] else [cur]
  | c :: cs, cur => if c = '|' then (if cur.isEmpty then [] else [cur]) ++ splitLoop cs [] else splitLoop cs (cur ++ [c])

/-- `splitFlags`, L255-271. -/
def splitFlags (s : Tok) : List Tok :=
  if (!s.isEmpty) && (splitLoop s []).isEmpty then [s] else splitLoop s []

/-- `Argparse::add`, L138-147 (before the calls chained on the result). -/
def addOpt {V : Type} (conv : Tok → Option V) (isBool : Bool) (tt dflt : V) (s : Tok) : Opt V :=
  ⟨splitFlags s, (splitFlags s).isEmpty, false, isBool, conv, tt, dflt⟩

/-! ### Conversions -/

/-- L72-80. -/
def convBool (w : Tok) : Option Bool :=
  if w = ['t', 'r', 'u', 'e'] ∨ w = ['1'] then some true
  else if w = ['f', 'a', 'l', 's', 'e'] ∨ w = ['0'] then some false
  else none

/-- L82-83. -/
def convString (w : Tok) : Option Tok := some w

def isDigit (c : Char) : Bool := '0' ≤ c && c ≤ '9'

def isSpace (c : Char) : Bool := c = ' ' || c = '\t' || c = '\n' || c = '\x0b' || c = '\x0c' || c = '\r'

def digitsVal (ds : Tok) : Nat := ds.foldl (fun a c => a * 10 + (c.toNat - '0'.toNat)) 0

/-- The longest run of digits. -/
def convDigits (w : Tok) : Option Nat :=
  if (w.takeWhile isDigit).isEmpty then none else some (digitsVal (w.takeWhile isDigit))

/-- `iss >> value_` (L85) for a signed type with limits `lo`, `hi`, in the C locale: white space is skipped, a sign and
a run of digits are read, a value outside the type is a failure. The rest of the text is not looked at. -/
def convInt (lo hi : Int) (w : Tok) : Option Int :=
  match w.dropWhile isSpace with
  | '-' :: r => (convDigits r).bind fun n => if lo ≤ -(n : Int) then some (-(n : Int)) else none
  | '+' :: r => (convDigits r).bind fun n => if (n : Int) ≤ hi then some (n : Int) else none
  | r => (convDigits r).bind fun n => if (n : Int) ≤ hi then some (n : Int) else none

end Verif.Args
