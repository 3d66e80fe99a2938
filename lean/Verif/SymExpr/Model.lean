import Verif.Prelude
/-
Symbolic shape expressions (C28). Sources: mllm/compile/symbolic_expr/{Parser.cpp, AST.hpp, Eval.cpp}.
-/
namespace Verif.SymExpr

/-! ### Tokens and trees -/

/-- Operators, Parser.cpp L14-18. -/
inductive Op where
  | plus | minus | mod | mul | div
  deriving DecidableEq, Repr

/-- Keywords, Parser.cpp L21-23. -/
inductive Kw where
  | ceil | floor | abs
  deriving DecidableEq, Repr

/-- Tokens. A floating-point literal keeps its text (`atof` is not modelled). `var []` is what an unknown
character gives (`lookup` returns `Identifier`, the name `str_v_` is empty). -/
inductive Tok where
  | int (n : Nat)
  | fp (s : List Char)
  | op (o : Op)
  | kw (k : Kw)
  | var (s : List Char)
  | lpar
  | rpar
  | eof
  deriving DecidableEq, Repr

/-- `getPrecedence`, Parser.cpp L114-117 with the dictionary L14-18. -/
def Op.prec : Op → Nat
  | .plus => 10
  | .minus => 10
  | .mod => 10
  | .mul => 20
  | .div => 20

/-- `SymbolExprAST`. `null` is the null pointer. -/
inductive Ast where
  | null
  | int (n : Int)
  | fp (s : List Char)
  | var (s : List Char)
  | un (k : Kw) (e : Ast)
  | bin (o : Op) (l r : Ast)
  deriving DecidableEq, Repr

/-! ### Lexer -/

def isAlpha (c : Char) : Bool := (65 ≤ c.toNat && c.toNat ≤ 90) || (97 ≤ c.toNat && c.toNat ≤ 122)
def isDig (c : Char) : Bool := 48 ≤ c.toNat && c.toNat ≤ 57
/-- Start of an identifier, L89. -/
def identStart (c : Char) : Bool := isAlpha c || c == '_'
/-- Inside an identifier, L194. -/
def identChar (c : Char) : Bool := isAlpha c || isDig c || c == '_'

/-- `atoi` on a string of digits (below 2^31, larger values overflow in the code). -/
def atoi (b : List Char) : Nat := b.foldl (fun a c => a * 10 + (c.toNat - 48)) 0

/-- `handleInt`/`handleFP`, L119-134: a dot makes it a float. -/
def numTok (b : List Char) : Tok := if '.' ∈ b then .fp b else .int (atoi b)

/-- End of `handleIdentifierState`, L199-212. -/
def identTok (b : List Char) : Tok :=
  if b = ['c', 'e', 'i', 'l'] then .kw .ceil
  else if b = ['f', 'l', 'o', 'o', 'r'] then .kw .floor
  else if b = ['a', 'b', 's'] then .kw .abs
  else .var b

/-- `handleOperationState`, L216-227. -/
def opTok (c : Char) : Tok :=
  if c = '+' then .op .plus
  else if c = '-' then .op .minus
  else if c = '%' then .op .mod
  else if c = '*' then .op .mul
  else if c = '/' then .op .div
  else if c = '(' then .lpar
  else if c = ')' then .rpar
  else .var []

/-- Lexer state together with `char_buffer_`; `num lead b`: `lead` is `has_one_dot` (only set by a leading
dot). -/
inductive LSt where
  | none
  | ident (b : List Char)
  | num (lead : Bool) (b : List Char)

/-- Choice of the next state from the current character, L84-108. -/
def begin (c : Char) : List Tok × LSt :=
  if identStart c then ([], .ident [c])
  else if isDig c || c == '.' then ([], .num (c == '.') [c])
  else if c = ' ' then ([], .none)
  else ([opTok c], .none)

/-- All tokens of the text up to the end (the end-of-input token is implicit). `none`: `exit(-1)` on a
second dot, L157-161. Repeated calls of `getNextToken`, L57-112. -/
def lexGo : LSt → List Char → Option (List Tok)
  | .none, [] => some []
  | .ident b, [] => some [identTok b]
  | .num _ b, [] => some [numTok b]
  | .none, c :: r => (lexGo (begin c).2 r).map ((begin c).1 ++ ·)
  | .ident b, c :: r =>
    if identChar c then lexGo (.ident (b ++ [c])) r
    else (lexGo (begin c).2 r).map (identTok b :: (begin c).1 ++ ·)
  | .num lead b, c :: r =>
    if lead && c == '.' then none
    else if c == '.' || isDig c then lexGo (.num lead (b ++ [c])) r
    else (lexGo (begin c).2 r).map (numTok b :: (begin c).1 ++ ·)

def lex (s : List Char) : Option (List Tok) := lexGo .none s

/-! ### Parser -/

/-- The next token and the remaining ones; past the end there is only `eof`. (The code alternates `eof`
with an unknown-character token after the first `eof`; this only matters for incomplete input.) -/
def next : List Tok → Tok × List Tok
  | [] => (.eof, [])
  | t :: r => (t, r)

mutual
/-- `parseExpr(prev)` on the current token, L251-272. The first argument bounds the number of nested calls
and loop rounds; `none`: not finished within the bound. -/
def parseExpr (fuel : Nat) (prev : Ast) (cur : Tok) (rest : List Tok) : Option (Ast × List Tok) :=
  match fuel with
  | 0 => none
  | fuel + 1 =>
    match cur with
    | .int n => some (.int n, rest)
    | .fp s => some (.fp s, rest)
    | .kw k => do
      -- `parseUnaryExpr`, L311-319: one token is skipped, it "must be a '('"
      let (g, rest) ← parseGroup fuel .null (next rest).2
      some (.un k g, rest)
    | .lpar => parseGroup fuel .null rest
    | .rpar => parseGroup fuel .null rest
    | .op o => parseBinary fuel prev o rest
    | .var s => some (.var s, rest)
    | .eof => some (.null, rest)

/-- The loop of `parseGroupedExpr`, L274-285; `ret` is the expression so far. -/
def parseGroup (fuel : Nat) (ret : Ast) (rest : List Tok) : Option (Ast × List Tok) :=
  match fuel with
  | 0 => none
  | fuel + 1 =>
    match next rest with
    | (.rpar, rest') => some (ret, rest')
    | (t, rest') => do
      let (e, rest'') ← parseExpr fuel ret t rest'
      parseGroup fuel e rest''

/-- `parseBinaryExpr(prev)` with the operator as current token, L292-309. -/
def parseBinary (fuel : Nat) (prev : Ast) (o : Op) (rest : List Tok) : Option (Ast × List Tok) :=
  match fuel with
  | 0 => none
  | fuel + 1 => do
    let (rhs, rest) ← parseExpr fuel prev (next rest).1 (next rest).2
    match rest with
    | .op o' :: rest' =>
      if o'.prec > o.prec then do
        let (rhs', rest'') ← parseBinary fuel rhs o' rest'
        some (.bin o prev rhs', rest'')
      else some (.bin o prev rhs, rest)
    | _ => some (.bin o prev rhs, rest)
end

/-- The loop of `SymbolExprParser::parse`, L241-249. -/
def parseLoop (fuel : Nat) (ret : Ast) (rest : List Tok) : Option Ast :=
  match fuel with
  | 0 => none
  | fuel + 1 =>
    match next rest with
    | (.eof, _) => some ret
    | (t, rest') => do
      let (e, rest'') ← parseExpr fuel ret t rest'
      parseLoop fuel e rest''

/-- `SymExpr(src)`: parse a text. -/
def parse (fuel : Nat) (s : List Char) : Option Ast := (lex s).bind (parseLoop fuel .null)

/-! ### Printing and evaluation -/

def Op.text : Op → List Char
  | .plus => [' ', '+', ' ']
  | .minus => [' ', '-', ' ']
  | .mul => [' ', '*', ' ']
  | .div => [' ', '/', ' ']
  | .mod => [' ', '%', ' ']

def Kw.text : Kw → List Char
  | .ceil => ['c', 'e', 'i', 'l']
  | .floor => ['f', 'l', 'o', 'o', 'r']
  | .abs => ['a', 'b', 's']

/-- Decimal digits of a number. -/
def digits (n : Nat) : List Char :=
  if n < 10 then [Char.ofNat (48 + n)] else digits (n / 10) ++ [Char.ofNat (48 + n % 10)]

def Ast.isBin : Ast → Bool
  | .bin _ _ _ => true
  | _ => false

/-- `str()`, AST.hpp: operands that are binary expressions are put in parentheses. -/
def Ast.print : Ast → List Char
  | .null => []
  | .int n => if n < 0 then '-' :: digits n.natAbs else digits n.natAbs
  | .fp s => s
  | .var s => s
  | .un k e => k.text ++ '(' :: e.print ++ [')']
  | .bin o l r =>
    (if l.isBin then '(' :: l.print ++ [')'] else l.print) ++ o.text ++
      (if r.isBin then '(' :: r.print ++ [')'] else r.print)

/-- The arithmetic used by `eval` (fp32 in the code, a parameter here). -/
structure Arith (V : Type) where
  ofInt : Int → V
  ofFp : List Char → V
  op : Op → V → V → V
  kw : Kw → V → V

/-- `eval(dict)`, AST.hpp; `none`: a variable missing from the dictionary (the code dereferences
`end()`) or a null subtree. -/
def Ast.eval {V : Type} (A : Arith V) (dict : List Char → Option V) : Ast → Option V
  | .null => none
  | .int n => some (A.ofInt n)
  | .fp s => some (A.ofFp s)
  | .var s => dict s
  | .un k e => (e.eval A dict).map (A.kw k)
  | .bin o l r => do
    let a ← l.eval A dict
    let b ← r.eval A dict
    some (A.op o a b)

/-- `isStatic`, AST.hpp / Eval.cpp L59-63. -/
def Ast.isStatic : Ast → Bool
  | .null => true
  | .int _ => true
  | .fp _ => true
  | .var _ => false
  | .un _ e => e.isStatic
  | .bin _ l r => l.isStatic && r.isStatic

end Verif.SymExpr
