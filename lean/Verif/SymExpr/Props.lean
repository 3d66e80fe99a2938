import Verif.SymExpr.Model
/-
C28. The specification is the textbook grammar of arithmetic expressions (`GFactor`, `GTerm`, `GExpr`):

  Expr   → Expr (+|-) Term | Term
  Term   → Term (*|/|%) Factor | Factor
  Factor → number | variable | '(' Expr ')' | function '(' Expr ')'

which fixes, for every sentence, the tree usual precedence and left associativity give it.
-/
namespace Verif.SymExpr

/-! ### Specification -/

def Op.isAdd (o : Op) : Prop := o = .plus ∨ o = .minus
def Op.isMul (o : Op) : Prop := o = .mul ∨ o = .div ∨ o = .mod

mutual
inductive GFactor : List Tok → Ast → Prop
  | int (n : Nat) : GFactor [.int n] (.int n)
  | var (s : List Char) : GFactor [.var s] (.var s)
  | group {ts e} : GExpr ts e → GFactor (.lpar :: ts ++ [.rpar]) e
  | call {k ts e} : GExpr ts e → GFactor (.kw k :: .lpar :: ts ++ [.rpar]) (.un k e)
inductive GTerm : List Tok → Ast → Prop
  | factor {ts e} : GFactor ts e → GTerm ts e
  | mul {o ts us l r} : o.isMul → GTerm ts l → GFactor us r → GTerm (ts ++ .op o :: us) (.bin o l r)
inductive GExpr : List Tok → Ast → Prop
  | term {ts e} : GTerm ts e → GExpr ts e
  | add {o ts us l r} : o.isAdd → GExpr ts l → GTerm us r → GExpr (ts ++ .op o :: us) (.bin o l r)
end

/-- What the parser makes of a token sequence: it ends, and returns `e`. -/
def ParsesTo (ts : List Tok) (e : Ast) : Prop := ∃ N, ∀ f ≥ N, parseLoop f .null ts = some e

/-- The same for a text. -/
def TextParsesTo (s : List Char) (e : Ast) : Prop := ∃ N, ∀ f ≥ N, parse f s = some e

/-! ### The sentences the code gets right

Restricted grammar: the term to the right of `+`/`-` has at most two factors; `%` only between two factors at
the start of an expression. -/

/-- `*` and `/`. -/
def Op.isMD (o : Op) : Prop := o = .mul ∨ o = .div

mutual
inductive RFactor : List Tok → Ast → Prop
  | int (n : Nat) : RFactor [.int n] (.int n)
  | var (s : List Char) : RFactor [.var s] (.var s)
  | group {ts e} : RExpr ts e → RFactor (.lpar :: ts ++ [.rpar]) e
  | call {k ts e} : RExpr ts e → RFactor (.kw k :: .lpar :: ts ++ [.rpar]) (.un k e)
inductive RTerm : List Tok → Ast → Prop
  | factor {ts e} : RFactor ts e → RTerm ts e
  | mul {o ts us l r} : o.isMD → RTerm ts l → RFactor us r → RTerm (ts ++ .op o :: us) (.bin o l r)
inductive RExpr : List Tok → Ast → Prop
  | term {ts e} : RTerm ts e → RExpr ts e
  | mod {ts us l r} : RFactor ts l → RFactor us r → RExpr (ts ++ .op .mod :: us) (.bin .mod l r)
  | add1 {o ts us l r} : o.isAdd → RExpr ts l → RFactor us r → RExpr (ts ++ .op o :: us) (.bin o l r)
  | add2 {o p ts us vs l x y} : o.isAdd → p.isMD → RExpr ts l → RFactor us x → RFactor vs y →
      RExpr (ts ++ .op o :: (us ++ .op p :: vs)) (.bin o l (.bin p x y))
end

mutual
theorem RFactor.toG {ts e} : RFactor ts e → GFactor ts e
  | .int n => .int n
  | .var s => .var s
  | .group h => .group h.toG
  | .call h => .call h.toG
theorem RTerm.toG {ts e} : RTerm ts e → GTerm ts e
  | .factor h => .factor h.toG
  | .mul ho h h' => .mul (by rcases ho with h | h <;> simp [Op.isMul, h]) h.toG h'.toG
theorem RExpr.toG {ts e} : RExpr ts e → GExpr ts e
  | .term h => .term h.toG
  | .mod h h' => .term (.mul (by simp [Op.isMul]) (.factor h.toG) h'.toG)
  | .add1 ho h h' => .add ho h.toG (.factor h'.toG)
  | .add2 ho hp h h1 h2 => .add ho h.toG
      (.mul (by rcases hp with h | h <;> simp [Op.isMul, h]) (.factor h1.toG) h2.toG)
end

/-! ### Parser lemmas -/

/-- One round of the parsing loops. -/
def Step (a b : Ast × List Tok) : Prop :=
  (next a.2).1 ≠ .rpar ∧ (next a.2).1 ≠ .eof ∧
  ∃ N, ∀ f ≥ N, parseExpr f a.1 (next a.2).1 (next a.2).2 = some b

abbrev Steps := Relation.ReflTransGen Step

theorem parseGroup_step {f : Nat} {a b : Ast × List Tok} (h1 : (next a.2).1 ≠ .rpar)
    (h : parseExpr f a.1 (next a.2).1 (next a.2).2 = some b) :
    parseGroup (f + 1) a.1 a.2 = parseGroup f b.1 b.2 := by
  rw [parseGroup.eq_def]
  simp only
  rcases hn : next a.2 with ⟨t, r⟩
  rw [hn] at h h1
  simp only at h h1
  cases t <;> first | exact absurd rfl h1 | (simp only; rw [h]; rfl)

theorem parseLoop_step {f : Nat} {a b : Ast × List Tok} (h1 : (next a.2).1 ≠ .eof)
    (h : parseExpr f a.1 (next a.2).1 (next a.2).2 = some b) :
    parseLoop (f + 1) a.1 a.2 = parseLoop f b.1 b.2 := by
  rw [parseLoop.eq_def]
  simp only
  rcases hn : next a.2 with ⟨t, r⟩
  rw [hn] at h h1
  simp only at h h1
  cases t <;> first | exact absurd rfl h1 | (simp only; rw [h]; rfl)

theorem group_of_steps {a b : Ast × List Tok} {x} (h : Steps a b)
    (hb : ∃ N, ∀ f ≥ N, parseGroup f b.1 b.2 = some x) : ∃ N, ∀ f ≥ N, parseGroup f a.1 a.2 = some x := by
  induction h using Relation.ReflTransGen.head_induction_on with
  | refl => exact hb
  | head h _ ih =>
    obtain ⟨h1, _, N, hN⟩ := h
    obtain ⟨M, hM⟩ := ih
    refine ⟨max N M + 1, fun f hf => ?_⟩
    obtain ⟨g, rfl⟩ : ∃ g, f = g + 1 := ⟨f - 1, by omega⟩
    rw [parseGroup_step h1 (hN g (by omega))]
    exact hM g (by omega)

theorem loop_of_steps {a b : Ast × List Tok} {x} (h : Steps a b)
    (hb : ∃ N, ∀ f ≥ N, parseLoop f b.1 b.2 = some x) : ∃ N, ∀ f ≥ N, parseLoop f a.1 a.2 = some x := by
  induction h using Relation.ReflTransGen.head_induction_on with
  | refl => exact hb
  | head h _ ih =>
    obtain ⟨_, h1, N, hN⟩ := h
    obtain ⟨M, hM⟩ := ih
    refine ⟨max N M + 1, fun f hf => ?_⟩
    obtain ⟨g, rfl⟩ : ∃ g, f = g + 1 := ⟨f - 1, by omega⟩
    rw [parseLoop_step h1 (hN g (by omega))]
    exact hM g (by omega)

/-- A factor is read by one call, whatever precedes and follows it. -/
def ReadsFactor (ts : List Tok) (e : Ast) : Prop :=
  ∀ prev rest, Step (prev, ts ++ rest) (e, rest) ∧ ∀ o r, ts ++ rest ≠ .op o :: r

/-- The text cannot continue a product. -/
def NoMul (rest : List Tok) : Prop := ∀ o r, rest = .op o :: r → ¬ o.isMD

theorem group_end (e : Ast) (rest : List Tok) : ∃ N, ∀ f ≥ N, parseGroup f e (.rpar :: rest) = some (e, rest) :=
  ⟨1, fun f hf => by
    obtain ⟨g, rfl⟩ : ∃ g, f = g + 1 := ⟨f - 1, by omega⟩
    rw [parseGroup.eq_def]; rfl⟩

theorem binary_plain {o : Op} {us : List Tok} {prev r : Ast} {rest : List Tok} (h : ReadsFactor us r)
    (hr : ∀ p q, rest = .op p :: q → p.prec ≤ o.prec) :
    ∃ N, ∀ f ≥ N, parseBinary f prev o (us ++ rest) = some (.bin o prev r, rest) := by
  obtain ⟨⟨_, _, N, hN⟩, _⟩ := h prev rest
  refine ⟨N + 1, fun f hf => ?_⟩
  obtain ⟨g, rfl⟩ : ∃ g, f = g + 1 := ⟨f - 1, by omega⟩
  rw [parseBinary.eq_def]
  simp only
  rw [hN g (by omega)]
  simp only [Option.bind_eq_bind, Option.bind_some]
  split
  · rw [if_neg (by have := hr _ _ rfl; omega)]
  · rfl

theorem binary_nested {o p : Op} {us vs : List Tok} {prev x y : Ast} {rest : List Tok} (ho : o.isAdd)
    (hp : p.isMD) (h : ReadsFactor us x) (h' : ReadsFactor vs y) :
    ∃ N, ∀ f ≥ N, parseBinary f prev o (us ++ .op p :: (vs ++ rest)) =
      some (.bin o prev (.bin p x y), rest) := by
  obtain ⟨⟨_, _, N, hN⟩, _⟩ := h prev (.op p :: (vs ++ rest))
  obtain ⟨M, hM⟩ := binary_plain (o := p) (prev := x) (rest := rest) h' (by
    intro q r _
    rcases hp with rfl | rfl <;> cases q <;> decide)
  refine ⟨max N M + 1, fun f hf => ?_⟩
  obtain ⟨g, rfl⟩ : ∃ g, f = g + 1 := ⟨f - 1, by omega⟩
  rw [parseBinary.eq_def]
  simp only
  rw [hN g (by omega)]
  simp only [Option.bind_eq_bind, Option.bind_some]
  rw [if_pos (by rcases ho with rfl | rfl <;> rcases hp with rfl | rfl <;> decide), hM g (by omega)]
  rfl

theorem step_of_binary {o : Op} {prev : Ast} {ts : List Tok} {x}
    (h : ∃ N, ∀ f ≥ N, parseBinary f prev o ts = some x) : Step (prev, .op o :: ts) x := by
  obtain ⟨N, hN⟩ := h
  refine ⟨by simp [next], by simp [next], N + 1, fun f hf => ?_⟩
  obtain ⟨g, rfl⟩ : ∃ g, f = g + 1 := ⟨f - 1, by omega⟩
  rw [parseExpr.eq_def]
  exact hN g (by omega)

mutual
theorem RFactor.reads {ts e} : RFactor ts e → ReadsFactor ts e
  | .int n => fun prev rest => ⟨⟨by simp [next], by simp [next], 1, fun f hf => by
      obtain ⟨g, rfl⟩ : ∃ g, f = g + 1 := ⟨f - 1, by omega⟩
      rw [parseExpr.eq_def]; rfl⟩, by simp⟩
  | .var s => fun prev rest => ⟨⟨by simp [next], by simp [next], 1, fun f hf => by
      obtain ⟨g, rfl⟩ : ∃ g, f = g + 1 := ⟨f - 1, by omega⟩
      rw [parseExpr.eq_def]; rfl⟩, by simp⟩
  | .group (ts := us) h => fun prev rest => by
      refine ⟨⟨by simp [next], by simp [next], ?_⟩, by simp⟩
      have hs := h.steps (.rpar :: rest) (by rintro o r ⟨⟩)
      obtain ⟨N, hN⟩ := group_of_steps hs (group_end _ _)
      refine ⟨N + 1, fun f hf => ?_⟩
      obtain ⟨g, rfl⟩ : ∃ g, f = g + 1 := ⟨f - 1, by omega⟩
      rw [parseExpr.eq_def]
      have := hN g (by omega)
      simpa [next] using this
  | .call (ts := us) (k := k) h => fun prev rest => by
      refine ⟨⟨by simp [next], by simp [next], ?_⟩, by simp⟩
      have hs := h.steps (.rpar :: rest) (by rintro o r ⟨⟩)
      obtain ⟨N, hN⟩ := group_of_steps hs (group_end _ _)
      refine ⟨N + 1, fun f hf => ?_⟩
      obtain ⟨g, rfl⟩ : ∃ g, f = g + 1 := ⟨f - 1, by omega⟩
      rw [parseExpr.eq_def]
      have := hN g (by omega)
      simp only [List.cons_append, next, List.append_assoc, List.nil_append] at this ⊢
      rw [this]; rfl
theorem RTerm.steps {ts e} : RTerm ts e → ∀ rest, Steps (.null, ts ++ rest) (e, rest)
  | .factor h => fun rest => .single (h.reads .null rest).1
  | .mul (o := o) (us := us) ho h h' => fun rest => by
      have h1 := h.steps (.op o :: (us ++ rest))
      refine .tail (by simpa using h1) (step_of_binary (binary_plain h'.reads ?_))
      intro q r _
      rcases ho with rfl | rfl <;> cases q <;> decide
theorem RExpr.steps {ts e} : RExpr ts e → ∀ rest, NoMul rest → Steps (.null, ts ++ rest) (e, rest)
  | .term h => fun rest _ => h.steps rest
  | .mod (us := us) h h' => fun rest hr => by
      have h1 := (h.reads .null (.op .mod :: (us ++ rest))).1
      refine .tail (.single (by simpa using h1)) (step_of_binary (binary_plain h'.reads ?_))
      intro q r hq
      have := hr q r hq
      cases q <;> simp [Op.isMD] at this <;> decide
  | .add1 (o := o) (us := us) ho h h' => fun rest hr => by
      have h1 := h.steps (.op o :: (us ++ rest)) (by
        rintro q r ⟨⟩
        rcases ho with rfl | rfl <;> simp [Op.isMD])
      refine .tail (by simpa using h1) (step_of_binary (binary_plain h'.reads ?_))
      intro q r hq
      have := hr q r hq
      rcases ho with rfl | rfl <;> cases q <;> simp [Op.isMD] at this <;> decide
  | .add2 (o := o) (p := p) (us := us) (vs := vs) ho hp h h1 h2 => fun rest hr => by
      have h3 := h.steps (.op o :: (us ++ .op p :: (vs ++ rest))) (by
        rintro q r ⟨⟩
        rcases ho with rfl | rfl <;> simp [Op.isMD])
      exact .tail (by simpa using h3) (step_of_binary (binary_nested ho hp h1.reads h2.reads))
end

/-! ### C28: precedence -/

/-- Every sentence of the restricted grammar is parsed to the tree the textbook grammar gives it. Missing
from the full property: products of three or more factors right of `+`/`-`, and `%` mixed with other
operators at the same level, where the code is wrong (`precedence_violated`, `mod_precedence_violated`). -/
theorem parse_precedence_partial {ts : List Tok} {e : Ast} (h : RExpr ts e) : GExpr ts e ∧ ParsesTo ts e := by
  refine ⟨h.toG, ?_⟩
  have hs := h.steps [] (by rintro o r ⟨⟩)
  refine loop_of_steps (by simpa using hs) ⟨1, fun f hf => ?_⟩
  obtain ⟨g, rfl⟩ : ∃ g, f = g + 1 := ⟨f - 1, by omega⟩
  rfl

/-- The parser's result does not depend on how much fuel is given once it ends. -/
theorem ParsesTo.unique {ts : List Tok} {e e' : Ast} (h : ParsesTo ts e) (h' : ParsesTo ts e') : e = e' := by
  obtain ⟨N, hN⟩ := h
  obtain ⟨M, hM⟩ := h'
  have := (hN (max N M) (by omega)).symm.trans (hM (max N M) (by omega))
  simpa using this

theorem TextParsesTo.unique {s : List Char} {e e' : Ast} (h : TextParsesTo s e) (h' : TextParsesTo s e') :
    e = e' := by
  obtain ⟨N, hN⟩ := h
  obtain ⟨M, hM⟩ := h'
  have := (hN (max N M) (by omega)).symm.trans (hM (max N M) (by omega))
  simpa using this

/-- The arithmetic of the integers, to show wrong values. -/
def intArith : Arith Int where
  ofInt n := n
  ofFp _ := 0
  op
    | .plus, a, b => a + b
    | .minus, a, b => a - b
    | .mul, a, b => a * b
    | .div, a, b => a / b
    | .mod, a, b => a % b
  kw
    | .ceil, a => a
    | .floor, a => a
    | .abs, a => |a|

/-- A step by explicit fuel, for computed examples. -/
theorem textParses_of_fuel {s : List Char} {ts : List Tok} {e : Ast} (hl : lex s = some ts)
    (h : ParsesTo ts e) : TextParsesTo s e := by
  obtain ⟨N, hN⟩ := h
  exact ⟨N, fun f hf => by simp [parse, hl, hN f hf]⟩

theorem parsesTo_of_eq {ts : List Tok} {e : Ast} (n : Nat) (h : ∀ k, parseLoop (k + n) .null ts = some e) :
    ParsesTo ts e := ⟨n, fun f hf => by obtain ⟨k, rfl⟩ : ∃ k, f = k + n := ⟨f - n, by omega⟩; exact h k⟩

def exBad : List Char := "1+2*3*4".toList
def exBadToks : List Tok := [.int 1, .op .plus, .int 2, .op .mul, .int 3, .op .mul, .int 4]
def exBadStd : Ast := .bin .plus (.int 1) (.bin .mul (.bin .mul (.int 2) (.int 3)) (.int 4))
def exBadCode : Ast := .bin .mul (.bin .plus (.int 1) (.bin .mul (.int 2) (.int 3))) (.int 4)

/-- `1+2*3*4` is read as `(1+2*3)*4`: its value is 28 instead of 25. -/
theorem precedence_violated :
    ∃ s ts std code, lex s = some ts ∧ GExpr ts std ∧ TextParsesTo s code ∧
      std.eval intArith (fun _ => none) = some 25 ∧ code.eval intArith (fun _ => none) = some 28 := by
  refine ⟨exBad, exBadToks, exBadStd, exBadCode, by decide +kernel, ?_, ?_, by decide, by decide⟩
  · have t1 : GExpr [.int 1] (.int 1) := .term (.factor (.int 1))
    have t2 : GTerm ([.int 2] ++ .op .mul :: [.int 3]) (.bin .mul (.int 2) (.int 3)) :=
      .mul (.inl rfl) (.factor (.int 2)) (.int 3)
    have t3 := GTerm.mul (o := .mul) (.inl rfl) t2 (.int 4)
    exact GExpr.add (o := .plus) (.inl rfl) t1 t3
  · exact textParses_of_fuel (ts := exBadToks) (by decide +kernel) (parsesTo_of_eq 20 fun k => rfl)

/-- `2%5*3` is read as `2%(5*3)`: `%` binds more weakly than `*`; its value is 2 instead of 6. -/
theorem mod_precedence_violated :
    ∃ s ts std code, lex s = some ts ∧ GExpr ts std ∧ TextParsesTo s code ∧
      std.eval intArith (fun _ => none) = some 6 ∧ code.eval intArith (fun _ => none) = some 2 := by
  refine ⟨"2%5*3".toList, [.int 2, .op .mod, .int 5, .op .mul, .int 3],
    .bin .mul (.bin .mod (.int 2) (.int 5)) (.int 3), .bin .mod (.int 2) (.bin .mul (.int 5) (.int 3)),
    by decide +kernel, ?_, ?_, by decide, by decide⟩
  · exact .term (GTerm.mul (o := .mul) (ts := [.int 2] ++ .op .mod :: [.int 5]) (us := [.int 3]) (.inl rfl)
      (.mul (.inr (.inr rfl)) (.factor (.int 2)) (.int 5)) (.int 3))
  · exact textParses_of_fuel (ts := [.int 2, .op .mod, .int 5, .op .mul, .int 3]) (by decide +kernel)
      (parsesTo_of_eq 20 fun k => rfl)

/-- `a*b - c/2 + 7`, covered by `parse_precedence_partial`. -/
example : RExpr [.var ['a'], .op .mul, .var ['b'], .op .minus, .var ['c'], .op .div, .int 2, .op .plus, .int 7]
    (.bin .plus (.bin .minus (.bin .mul (.var ['a']) (.var ['b'])) (.bin .div (.var ['c']) (.int 2))) (.int 7)) := by
  have t1 : RExpr ([.var ['a']] ++ .op .mul :: [.var ['b']]) (.bin .mul (.var ['a']) (.var ['b'])) :=
    .term (.mul (.inl rfl) (.factor (.var _)) (.var _))
  have t2 := RExpr.add2 (o := .minus) (p := .div) (.inr rfl) (.inr rfl) t1 (.var ['c']) (.int 2)
  exact RExpr.add1 (o := .plus) (.inl rfl) t2 (.int 7)

/-! ### C28: values

The value of a token sequence under the textbook grammar, without trees. -/

mutual
inductive VFactor {V : Type} (A : Arith V) (d : List Char → Option V) : List Tok → V → Prop
  | int (n : Nat) : VFactor A d [.int n] (A.ofInt n)
  | var {s v} : d s = some v → VFactor A d [.var s] v
  | group {ts v} : VExpr A d ts v → VFactor A d (.lpar :: ts ++ [.rpar]) v
  | call {k ts v} : VExpr A d ts v → VFactor A d (.kw k :: .lpar :: ts ++ [.rpar]) (A.kw k v)
inductive VTerm {V : Type} (A : Arith V) (d : List Char → Option V) : List Tok → V → Prop
  | factor {ts v} : VFactor A d ts v → VTerm A d ts v
  | mul {o ts us v w} : o.isMul → VTerm A d ts v → VFactor A d us w →
      VTerm A d (ts ++ .op o :: us) (A.op o v w)
inductive VExpr {V : Type} (A : Arith V) (d : List Char → Option V) : List Tok → V → Prop
  | term {ts v} : VTerm A d ts v → VExpr A d ts v
  | add {o ts us v w} : o.isAdd → VExpr A d ts v → VTerm A d us w →
      VExpr A d (ts ++ .op o :: us) (A.op o v w)
end

theorem eval_bin {V : Type} {A : Arith V} {d : List Char → Option V} {o l r v}
    (h : (Ast.bin o l r).eval A d = some v) :
    ∃ a b, l.eval A d = some a ∧ r.eval A d = some b ∧ v = A.op o a b := by
  cases ha : l.eval A d with
  | none => simp [Ast.eval, ha] at h
  | some a =>
    cases hb : r.eval A d with
    | none => simp [Ast.eval, ha, hb] at h
    | some b => exact ⟨a, b, rfl, rfl, by simpa [Ast.eval, ha, hb] using h.symm⟩

mutual
theorem GFactor.value {V : Type} {A : Arith V} {d : List Char → Option V} {ts e} :
    GFactor ts e → ∀ v, e.eval A d = some v → VFactor A d ts v
  | .int n => fun v h => by
      have hv : A.ofInt n = v := by simpa [Ast.eval] using h
      exact hv ▸ .int n
  | .var s => fun v h => .var h
  | .group h => fun v hv => .group (h.value v hv)
  | .call (k := k) (e := e) h => fun v hv => by
      cases ha : e.eval A d with
      | none => simp [Ast.eval, ha] at hv
      | some a =>
        have : A.kw k a = v := by simpa [Ast.eval, ha] using hv
        exact this ▸ .call (h.value a ha)
theorem GTerm.value {V : Type} {A : Arith V} {d : List Char → Option V} {ts e} :
    GTerm ts e → ∀ v, e.eval A d = some v → VTerm A d ts v
  | .factor h => fun v hv => .factor (h.value v hv)
  | .mul ho h h' => fun v hv => by
      obtain ⟨a, b, ha, hb, rfl⟩ := eval_bin hv
      exact .mul ho (h.value a ha) (h'.value b hb)
theorem GExpr.value {V : Type} {A : Arith V} {d : List Char → Option V} {ts e} :
    GExpr ts e → ∀ v, e.eval A d = some v → VExpr A d ts v
  | .term h => fun v hv => .term (h.value v hv)
  | .add ho h h' => fun v hv => by
      obtain ⟨a, b, ha, hb, rfl⟩ := eval_bin hv
      exact .add ho (h.value a ha) (h'.value b hb)
end

/-- Whatever arithmetic and dictionary: the value computed for a parsed sentence of the restricted grammar is
its textbook value. -/
theorem eval_precedence_partial {V : Type} (A : Arith V) (d : List Char → Option V) {ts : List Tok}
    {e e' : Ast} (h : RExpr ts e) (hp : ParsesTo ts e') {v : V} (hv : e'.eval A d = some v) :
    VExpr A d ts v := by
  rw [hp.unique (parse_precedence_partial h).2] at hv
  exact h.toG.value v hv

/-! ### C28: printing and parsing back -/

/-- A name the lexer reads back as one variable. -/
def ValidName (s : List Char) : Prop :=
  ∃ c r, s = c :: r ∧ identStart c ∧ (∀ x ∈ r, identChar x) ∧ s ≠ Kw.ceil.text ∧ s ≠ Kw.floor.text ∧
    s ≠ Kw.abs.text

/-- Trees without negative literals, floats and null parts, with proper names. -/
def Printable : Ast → Prop
  | .null => False
  | .int n => 0 ≤ n
  | .fp _ => False
  | .var s => ValidName s
  | .un _ e => Printable e
  | .bin _ l r => Printable l ∧ Printable r

/-- Tokens of a printed tree. -/
def Ast.toks : Ast → List Tok
  | .null => []
  | .int n => [.int n.natAbs]
  | .fp s => [.fp s]
  | .var s => [.var s]
  | .un k e => .kw k :: .lpar :: e.toks ++ [.rpar]
  | .bin o l r =>
    (if l.isBin then .lpar :: l.toks ++ [.rpar] else l.toks) ++ .op o ::
      (if r.isBin then .lpar :: r.toks ++ [.rpar] else r.toks)

/-- A text that ends a name or a number. -/
def Delim (s : List Char) : Prop := ∀ c r, s = c :: r → identChar c = false ∧ c ≠ '.'

theorem delim_nil : Delim [] := by rintro c r ⟨⟩
theorem delim_space (s) : Delim (' ' :: s) := by rintro c r ⟨⟩; decide
theorem delim_rpar (s) : Delim (')' :: s) := by rintro c r ⟨⟩; decide
theorem delim_lpar (s) : Delim ('(' :: s) := by rintro c r ⟨⟩; decide

theorem lexGo_ident_end (b s : List Char) (hs : Delim s) :
    lexGo (.ident b) s = (lexGo .none s).map (identTok b :: ·) := by
  cases s with
  | nil => rfl
  | cons c r =>
    have h := (hs c r rfl).1
    simp [lexGo, h, Option.map_map, Function.comp_def]

theorem lexGo_num_end (l : Bool) (b s : List Char) (hs : Delim s) :
    lexGo (.num l b) s = (lexGo .none s).map (numTok b :: ·) := by
  cases s with
  | nil => rfl
  | cons c r =>
    have h := hs c r rfl
    have h1 : isDig c = false := by
      have := h.1
      simp only [identChar, Bool.or_eq_false_iff] at this
      exact this.1.2
    simp [lexGo, h1, h.2, Option.map_map, Function.comp_def]

theorem lexGo_ident_chars (r : List Char) : ∀ b s, (∀ x ∈ r, identChar x) →
    lexGo (.ident b) (r ++ s) = lexGo (.ident (b ++ r)) s := by
  induction r with
  | nil => intro b s _; simp
  | cons c r ih =>
    intro b s h
    have hc : identChar c = true := h c (by simp)
    rw [List.cons_append, lexGo, if_pos hc, ih _ _ (fun x hx => h x (by simp [hx]))]
    simp

theorem lexGo_num_chars (r : List Char) : ∀ b s, (∀ x ∈ r, isDig x) →
    lexGo (.num false b) (r ++ s) = lexGo (.num false (b ++ r)) s := by
  induction r with
  | nil => intro b s _; simp
  | cons c r ih =>
    intro b s h
    have hc : isDig c = true := h c (by simp)
    rw [List.cons_append, lexGo]
    simp only [Bool.false_and, Bool.false_eq_true, if_false, hc, Bool.or_true, if_true]
    rw [ih _ _ (fun x hx => h x (by simp [hx]))]
    simp

theorem lexGo_word {c : Char} {r s : List Char} (hc : identStart c) (hr : ∀ x ∈ r, identChar x)
    (hs : Delim s) : lexGo .none (c :: r ++ s) = (lexGo .none s).map (identTok (c :: r) :: ·) := by
  have hb : begin c = ([], .ident [c]) := by simp [begin, hc]
  rw [List.cons_append, lexGo, hb]
  simp only [List.nil_append]
  rw [lexGo_ident_chars _ _ _ hr, lexGo_ident_end _ _ hs]
  simp [Function.comp_def]

theorem isDig_ofNat {k : Nat} (h : k < 10) : isDig (Char.ofNat (48 + k)) = true ∧
    (Char.ofNat (48 + k)).toNat = 48 + k ∧ Char.ofNat (48 + k) ≠ '.' := by
  interval_cases k <;> decide

theorem digits_isDig (n : Nat) : ∀ x ∈ digits n, isDig x = true := by
  induction n using Nat.strong_induction_on with
  | _ n ih =>
    rw [digits]
    split_ifs with h
    · intro x hx
      rw [List.mem_singleton.1 hx]
      exact (isDig_ofNat h).1
    · intro x hx
      rcases List.mem_append.1 hx with hx | hx
      · exact ih _ (by omega) x hx
      · rw [List.mem_singleton.1 hx]
        exact (isDig_ofNat (Nat.mod_lt _ (by omega))).1

theorem digits_ne_nil (n : Nat) : digits n ≠ [] := by
  rw [digits]; split_ifs <;> simp

theorem atoi_digits (n : Nat) : atoi (digits n) = n := by
  induction n using Nat.strong_induction_on with
  | _ n ih =>
    rw [digits]
    split_ifs with h
    · have := (isDig_ofNat h).2.1
      simp [atoi, this]
    · have h1 := ih (n / 10) (by omega)
      have h2 := (isDig_ofNat (Nat.mod_lt n (by omega : 0 < 10))).2.1
      unfold atoi at h1 ⊢
      rw [List.foldl_append, h1]
      simp only [List.foldl_cons, List.foldl_nil, h2]
      omega

theorem numTok_digits (n : Nat) : numTok (digits n) = .int n := by
  have : '.' ∉ digits n := fun h => by
    have := digits_isDig n _ h
    revert this; decide
  simp [numTok, this, atoi_digits]

theorem dig_not_ident {c : Char} (h : isDig c = true) : identStart c = false ∧ c ≠ '.' := by
  constructor
  · simp only [isDig, Bool.and_eq_true, decide_eq_true_eq] at h
    simp only [identStart, isAlpha, Bool.or_eq_false_iff, Bool.and_eq_false_iff, decide_eq_false_iff_not,
      beq_eq_false_iff_ne]
    refine ⟨⟨.inl (by omega), .inl (by omega)⟩, ?_⟩
    rintro rfl
    have : '_'.toNat = 95 := rfl
    omega
  · rintro rfl
    revert h; decide

theorem lexGo_digits (n : Nat) (s : List Char) (hs : Delim s) :
    lexGo .none (digits n ++ s) = (lexGo .none s).map (.int n :: ·) := by
  have hd := digits_isDig n
  have ht := numTok_digits n
  obtain ⟨c, r, hcr⟩ := List.exists_cons_of_ne_nil (digits_ne_nil n)
  rw [hcr] at hd ht ⊢
  have hc := hd c (by simp)
  have hb : begin c = ([], .num false [c]) := by simp [begin, dig_not_ident hc, hc]
  rw [List.cons_append, lexGo, hb]
  simp only [List.nil_append]
  rw [lexGo_num_chars _ _ _ (fun x hx => hd x (by simp [hx])), lexGo_num_end _ _ _ hs]
  simp only [List.cons_append, List.nil_append, ht]
  simp [Function.comp_def]

theorem lexGo_space (s : List Char) : lexGo .none (' ' :: s) = lexGo .none s := by
  have hb : begin ' ' = ([], .none) := by simp [begin, identStart, isAlpha, isDig]
  rw [lexGo, hb]; simp

theorem lexGo_op (o : Op) (s : List Char) :
    lexGo .none (o.text ++ s) = (lexGo .none s).map (.op o :: ·) := by
  cases o <;> simp only [Op.text, List.cons_append, List.nil_append, lexGo_space] <;>
    (rw [lexGo]; simp [begin, identStart, isAlpha, isDig, opTok, lexGo_space])

theorem lexGo_lpar (s : List Char) : lexGo .none ('(' :: s) = (lexGo .none s).map (.lpar :: ·) := by
  rw [lexGo]; simp [begin, identStart, isAlpha, isDig, opTok]

theorem lexGo_rpar (s : List Char) : lexGo .none (')' :: s) = (lexGo .none s).map (.rpar :: ·) := by
  rw [lexGo]; simp [begin, identStart, isAlpha, isDig, opTok]

theorem lexGo_kw (k : Kw) (s : List Char) (hs : Delim s) :
    lexGo .none (k.text ++ s) = (lexGo .none s).map (.kw k :: ·) := by
  cases k <;> simp only [Kw.text] <;> rw [lexGo_word (by decide) (by decide) hs] <;> rfl

theorem delim_op (o : Op) (s) : Delim (o.text ++ s) := by cases o <;> exact delim_space _

theorem lex_print (e : Ast) : ∀ s, Printable e → Delim s →
    lexGo .none (e.print ++ s) = (lexGo .none s).map (e.toks ++ ·) := by
  induction e with
  | null => intro s h; exact h.elim
  | fp _ => intro s h; exact h.elim
  | int n =>
    intro s h hs
    have hn : ¬ n < 0 := by simpa [Printable] using h
    simp only [Ast.print, hn, if_false, Ast.toks, List.cons_append, List.nil_append]
    exact lexGo_digits _ _ hs
  | var v =>
    intro s h hs
    obtain ⟨c, r, rfl, hc, hr, h1, h2, h3⟩ := h
    rw [Ast.print, lexGo_word hc hr hs]
    have : identTok (c :: r) = .var (c :: r) := by
      simp only [Kw.text] at h1 h2 h3
      unfold identTok
      rw [if_neg h1, if_neg h2, if_neg h3]
    rw [this]; rfl
  | un k e ih =>
    intro s h hs
    simp only [Ast.print, List.append_assoc, List.cons_append, List.nil_append]
    rw [lexGo_kw _ _ (delim_lpar _), lexGo_lpar, ih _ h (delim_rpar _), lexGo_rpar]
    simp [Option.map_map, Function.comp_def, Ast.toks]
  | bin o l r ihl ihr =>
    intro s h hs
    have key : ∀ (e : Ast), Printable e → (∀ s, Printable e → Delim s →
        lexGo .none (e.print ++ s) = (lexGo .none s).map (e.toks ++ ·)) → ∀ s, Delim s →
        lexGo .none ((if e.isBin then '(' :: e.print ++ [')'] else e.print) ++ s) =
        (lexGo .none s).map ((if e.isBin then .lpar :: e.toks ++ [.rpar] else e.toks) ++ ·) := by
      intro e he ih s hs
      split_ifs
      · simp only [List.append_assoc, List.cons_append, List.nil_append]
        rw [lexGo_lpar, ih _ he (delim_rpar _), lexGo_rpar]
        simp [Option.map_map, Function.comp_def]
      · exact ih s he hs
    simp only [Ast.print, List.append_assoc]
    rw [key l h.1 ihl _ (delim_op _ _), lexGo_op, key r h.2 ihr _ hs]
    simp [Option.map_map, Function.comp_def, Ast.toks]

/-- The tokens of a printed tree, as an operand and as a whole expression. -/
theorem toks_grammar (e : Ast) (h : Printable e) :
    (e.isBin = false → RFactor e.toks e) ∧ RExpr e.toks e := by
  induction e with
  | null => exact h.elim
  | fp _ => exact h.elim
  | int n =>
    have : ((n.natAbs : Nat) : Int) = n := by
      have hn : 0 ≤ n := h
      omega
    have hf : RFactor [.int n.natAbs] (.int n) := by
      have := RFactor.int n.natAbs
      rwa [‹((n.natAbs : Nat) : Int) = n›] at this
    exact ⟨fun _ => hf, .term (.factor hf)⟩
  | var v => exact ⟨fun _ => .var v, .term (.factor (.var v))⟩
  | un k e ih =>
    have hf : RFactor (Ast.un k e).toks (.un k e) := .call (ih h).2
    exact ⟨fun _ => hf, .term (.factor hf)⟩
  | bin o l r ihl ihr =>
    refine ⟨by simp [Ast.isBin], ?_⟩
    have key : ∀ e : Ast, ((e.isBin = false → RFactor e.toks e) ∧ RExpr e.toks e) →
        RFactor (if e.isBin then .lpar :: e.toks ++ [.rpar] else e.toks) e := by
      intro e he
      split_ifs with hb
      · exact .group he.2
      · exact he.1 (by simpa using hb)
    have hl := key l (ihl h.1)
    have hr := key r (ihr h.2)
    rw [Ast.toks]
    cases o with
    | plus => exact .add1 (.inl rfl) (.term (.factor hl)) hr
    | minus => exact .add1 (.inr rfl) (.term (.factor hl)) hr
    | mod => exact .mod hl hr
    | mul => exact .term (.mul (.inl rfl) (.factor hl) hr)
    | div => exact .term (.mul (.inr rfl) (.factor hl) hr)

/-- Printing an expression and parsing the text gives the same expression back. Missing: negative and
floating-point literals (`print_negative_violated`). -/
theorem parse_print_partial {e : Ast} (h : Printable e) : TextParsesTo e.print e := by
  have hl : lex e.print = some e.toks := by
    have := lex_print e [] h delim_nil
    simpa [lex, lexGo] using this
  exact textParses_of_fuel hl (parse_precedence_partial (toks_grammar e h).2).2

/-- Hence a printed expression evaluates, after parsing it back, to its own value. -/
theorem eval_parse_print_partial {V : Type} (A : Arith V) (dict : List Char → Option V) {e e' : Ast}
    (h : Printable e) (h' : TextParsesTo e.print e') : e'.eval A dict = e.eval A dict := by
  rw [h'.unique (parse_print_partial h)]

example : Printable (.bin .mod (.un .ceil (.bin .div (.var ['h', '_', '1']) (.int 14)))
    (.bin .minus (.var ['w']) (.int 305))) := by
  refine ⟨⟨⟨'h', ['_', '1'], rfl, ?_⟩, ?_⟩, ⟨'w', [], rfl, ?_⟩, ?_⟩ <;> (try decide)
  all_goals simp [Printable]

/-- A negative literal is not read back: `a + -5` becomes `a + (a - 5)`. -/
theorem print_negative_violated : ∃ e e' : Ast, e = .bin .plus (.var ['a']) (.int (-5)) ∧ TextParsesTo e.print e' ∧
    e.eval intArith (fun _ => some 3) = some (-2) ∧ e'.eval intArith (fun _ => some 3) = some 1 := by
  refine ⟨_, .bin .plus (.var ['a']) (.bin .minus (.var ['a']) (.int 5)), rfl, ?_, by decide, by decide⟩
  exact textParses_of_fuel (ts := [.var ['a'], .op .plus, .op .minus, .int 5]) (by decide +kernel)
    (parsesTo_of_eq 20 fun k => rfl)

theorem parseGroup_nil (f : Nat) : ∀ ret, parseGroup f ret [] = none := by
  induction f with
  | zero => intro ret; rfl
  | succ f ih =>
    intro ret
    rw [parseGroup.eq_def]
    cases f with
    | zero => rfl
    | succ f =>
      simp only [next]
      rw [parseExpr.eq_def]
      simp only [Option.bind_eq_bind, Option.bind_some]
      exact ih _

/-- An unclosed parenthesis makes the parser loop for ever. -/
theorem unbalanced_diverges : ∃ s, ∀ f, parse f s = none := by
  refine ⟨['('], fun f => ?_⟩
  have hl : lex ['('] = some [.lpar] := by decide
  rw [parse, hl, Option.bind_some, parseLoop.eq_def]
  cases f with
  | zero => rfl
  | succ f =>
    simp only [next]
    rw [parseExpr.eq_def]
    cases f with
    | zero => rfl
    | succ f => simp [parseGroup_nil]

/-! ### C28: static expressions -/

/-- An expression reported static has the same value for every dictionary. -/
theorem isStatic_eval {V : Type} (A : Arith V) (e : Ast) (h : e.isStatic = true)
    (d d' : List Char → Option V) : e.eval A d = e.eval A d' := by
  induction e with
  | null => rfl
  | int n => rfl
  | fp s => rfl
  | var s => simp [Ast.isStatic] at h
  | un k e ih => simp only [Ast.eval, ih h]
  | bin o l r ihl ihr =>
    simp only [Ast.isStatic, Bool.and_eq_true] at h
    simp only [Ast.eval, ihl h.1, ihr h.2]

/-- Variables of an expression. -/
def Ast.vars : Ast → List (List Char)
  | .var s => [s]
  | .un _ e => e.vars
  | .bin _ l r => l.vars ++ r.vars
  | _ => []

/-- An expression is reported static exactly when no variable occurs in it. -/
theorem isStatic_iff (e : Ast) : e.isStatic = true ↔ e.vars = [] := by
  induction e with
  | bin o l r ihl ihr => simp [Ast.isStatic, Ast.vars, ihl, ihr]
  | un k e ih => simpa [Ast.isStatic, Ast.vars] using ih
  | _ => simp [Ast.isStatic, Ast.vars]

/-- A complete expression whose variables are all in the dictionary has a value. -/
theorem eval_total {V : Type} (A : Arith V) (d : List Char → Option V) (e : Ast) (h : Printable e)
    (hv : ∀ s ∈ e.vars, (d s).isSome) : (e.eval A d).isSome := by
  induction e with
  | null => exact h.elim
  | fp _ => exact h.elim
  | int n => rfl
  | var s => exact hv s (by simp [Ast.vars])
  | un k e ih => simpa [Ast.eval] using ih h hv
  | bin o l r ihl ihr =>
    have h1 := ihl h.1 fun s hs => hv s (by simp [Ast.vars, hs])
    have h2 := ihr h.2 fun s hs => hv s (by simp [Ast.vars, hs])
    obtain ⟨a, ha⟩ := Option.isSome_iff_exists.1 h1
    obtain ⟨b, hb⟩ := Option.isSome_iff_exists.1 h2
    simp [Ast.eval, ha, hb]

end Verif.SymExpr
