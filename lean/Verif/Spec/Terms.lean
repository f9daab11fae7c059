import Verif.Model.Term
import Mathlib.Algebra.Order.Group.Unbundled.Int

/-! Specification of the meaning of theory terms in exact arithmetic. -/
namespace Clingcon.Spec
open Clingcon

/-- The way clingo prints strings: escape backslash, newline and quote. -/
def escape : List Char → List Char
  | [] => []
  | c :: cs =>
    (if c = '\n' then ['\\', 'n'] else if c = '\\' then ['\\', '\\'] else if c = '"' then ['\\', '"'] else [c])
      ++ escape cs

/-- A number symbol. -/
def numOf : Sym → Option Int
  | .num n => some n
  | _ => none

section
variable (lex : String → Option Sym) (pow : Int → Int → Option Int)

/-- Exact meaning of binary arithmetic operators (division truncates, remainder has the sign of the
dividend); `none` if the name is not an operator. -/
def arithOp (f : String) : Option (Int → Int → Option Int) :=
  if f = "+" then some fun x y => some (x + y)
  else if f = "-" then some fun x y => some (x - y)
  else if f = "*" then some fun x y => some (x * y)
  else if f = "/" then some fun x y => if y = 0 then none else some (x.tdiv y)
  else if f = "\\" then some fun x y => if y = 0 then none else some (x.tmod y)
  else if f = "**" then some pow
  else none

mutual
/-- The symbol denoted by a ground term, in exact arithmetic. -/
def ground : Term → Option Sym
  | .num n => some (.num n)
  | .sym name => lex name
  | .fn f [a, b] =>
    match arithOp pow f with
    | some op => do return .num (← op (← numOf (← ground a)) (← numOf (← ground b)))
    | none => if f = ".." then none else do return .fn f [← ground a, ← ground b] true
  | .fn f [a] =>
    if f = "-" then do
      match ← ground a with
      | .num n => return .num (-n)
      | .fn g args pos => if g.length > 0 then return .fn g args (!pos) else none
      | .str _ => none
    else do return .fn f [← ground a] true
  | .fn f args => do return .fn f (← grounds args) true
  | .tuple args => do return .fn "" (← grounds args) true
  | .other _ => none
/-- The symbols denoted by a list of terms. -/
def grounds : List Term → Option (List Sym)
  | [] => some []
  | t :: ts => do return (← ground t) :: (← grounds ts)
end

/-- The integer denoted by a term of a sum for an assignment `σ` to symbols. -/
def value (σ : Sym → Int) : Term → Option Int
  | .num n => some n
  | .fn f [a, b] =>
    if f = "+" then do return (← value σ a) + (← value σ b)
    else if f = "-" then do return (← value σ a) - (← value σ b)
    else if f = "*" then do return (← value σ a) * (← value σ b)
    else if f = "**" ∨ f = "/" ∨ f = "\\" then do numOf (← ground lex pow (.fn f [a, b]))
    else (ground lex pow (.fn f [a, b])).map σ
  | .fn f [a] =>
    if f = "-" then do return -(← value σ a)
    else if f = "+" then value σ a
    else (ground lex pow (.fn f [a])).map σ
  | t => (ground lex pow t).map σ

/-- The sum of the values of a list of terms. -/
def sumValue (σ : Sym → Int) : List Term → Option Int
  | [] => some 0
  | t :: ts => do return (← value lex pow σ t) + (← sumValue σ ts)

/-- The integer denoted by an argument of a difference: numbers denote themselves, other symbols their
value. -/
def argValue (σ : Sym → Int) (t : Term) : Option Int := do
  match ← ground lex pow t with
  | .num n => return n
  | s => return σ s

/-- The integer denoted by a difference `a - b`. -/
def diffValue (σ : Sym → Int) : List Term → Option Int
  | [.fn "-" [a, b]] => do return (← argValue lex pow σ a) - (← argValue lex pow σ b)
  | _ => none
end

mutual
/-- All numbers in a term fit 32 bits, as is the case for terms of clingo. -/
def numsFit : Term → Prop
  | .num n => -2 ^ 31 ≤ n ∧ n ≤ 2 ^ 31 - 1
  | .sym _ => True
  | .fn _ args => numsFits args
  | .tuple args => numsFits args
  | .other args => numsFits args
/-- All numbers in a list of terms fit 32 bits. -/
def numsFits : List Term → Prop
  | [] => True
  | t :: ts => numsFit t ∧ numsFits ts
end

/-- Meaning of names: what property C14 says about `evalName`. -/
def names (n : String) : Option Sym := (evalName n).toOption

/-- Meaning of exponentiation, which is computed by the C library: whatever is returned. -/
def powers (pow : Int → Int → Res Int) (x y : Int) : Option Int := (pow x y).toOption

/-- The term mentions a variable (for the terms in `linearTerm`). -/
def hasVar : Term → Bool
  | .num _ => false
  | .fn _ [a, b] => hasVar a || hasVar b
  | .fn _ [a] => hasVar a
  | _ => true

/-- Terms built from numbers, names of variables, sums, differences and products with a constant. -/
def linearTerm : Term → Prop
  | .num _ => True
  | .sym name => name.toList.head? ≠ some '"'
  | .fn f [a, b] => linearTerm a ∧ linearTerm b ∧
      (f = "+" ∨ f = "-" ∨ f = "*" ∧ (hasVar a = false ∨ hasVar b = false))
  | .fn f [a] => linearTerm a ∧ (f = "+" ∨ f = "-")
  | _ => False

/-- Upper bound for the sum of the absolute values of all coefficients when expanding a term. -/
def magnitude : Term → Int
  | .num n => |n|
  | .fn f [a, b] => if f = "*" then magnitude a * magnitude b else magnitude a + magnitude b
  | .fn _ [a] => magnitude a
  | _ => 1

/-- The coefficients of all subterms add up to 32-bit integers. -/
def smallTerm : Term → Prop
  | .num n => |n| ≤ 2 ^ 31 - 1
  | .fn f [a, b] => smallTerm a ∧ smallTerm b ∧ magnitude (.fn f [a, b]) ≤ 2 ^ 31 - 1
  | .fn _ [a] => smallTerm a
  | _ => True

end Clingcon.Spec
