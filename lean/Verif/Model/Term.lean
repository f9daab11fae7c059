import Verif.Model.Util

/-! Model of theory terms and their evaluation, `libclingcon/src/parsing.cc:244-358`.

clingo's `TheoryTerm` and `Symbol` are modelled by inductive types. -/
namespace Clingcon

/-- `Clingo::TheoryTerm`: numbers, symbols, functions (operators are functions whose name is the
operator), tuples, and lists/sets (`other`). -/
inductive Term where
  | num (n : Int)
  | sym (name : String)
  | fn (name : String) (args : List Term)
  | tuple (args : List Term)
  | other (args : List Term)

/-- `Clingo::Symbol` (without `#inf` and `#sup`, which the code below never creates). -/
inductive Sym where
  | num (n : Int)
  | str (s : String)
  | fn (name : String) (args : List Sym) (positive : Bool)

mutual
/-- Decidable equality of symbols (`Clingo::operator==` on symbols). -/
def Sym.decEq : (a b : Sym) → Decidable (a = b)
  | .num m, .num n => if h : m = n then .isTrue (by rw [h]) else .isFalse (by simp [h])
  | .str m, .str n => if h : m = n then .isTrue (by rw [h]) else .isFalse (by simp [h])
  | .fn f as p, .fn g bs q =>
    if h : f = g ∧ p = q then
      match Sym.decEqs as bs with
      | .isTrue h' => .isTrue (by rw [h.1, h.2, h'])
      | .isFalse h' => .isFalse (by simp [h'])
    else .isFalse (by intro e; injection e with e1 e2 e3; exact h ⟨e1, e3⟩)
  | .num _, .str _ => .isFalse (by simp)
  | .num _, .fn _ _ _ => .isFalse (by simp)
  | .str _, .num _ => .isFalse (by simp)
  | .str _, .fn _ _ _ => .isFalse (by simp)
  | .fn _ _ _, .num _ => .isFalse (by simp)
  | .fn _ _ _, .str _ => .isFalse (by simp)
/-- Decidable equality of lists of symbols. -/
def Sym.decEqs : (a b : List Sym) → Decidable (a = b)
  | [], [] => .isTrue rfl
  | [], _ :: _ => .isFalse (by simp)
  | _ :: _, [] => .isFalse (by simp)
  | a :: as, b :: bs =>
    match Sym.decEq a b, Sym.decEqs as bs with
    | .isTrue h, .isTrue h' => .isTrue (by rw [h, h'])
    | .isFalse h, _ => .isFalse (by simp [h])
    | _, .isFalse h => .isFalse (by simp [h])
end

instance : DecidableEq Sym := Sym.decEq

/-- parsing.cc:269-300 `unquote`. The flag is the local variable `slash`. An unexpected escape
violates the `assert` in line 288. -/
def unquoteAux : Bool → List Char → Res (List Char)
  | _, [] => .ok []
  | true, c :: cs =>
    if c = 'n' then (unquoteAux false cs).map ('\n' :: ·)
    else if c = '\\' then (unquoteAux false cs).map ('\\' :: ·)
    else if c = '"' then (unquoteAux false cs).map ('"' :: ·)
    else .error .ub
  | false, c :: cs =>
    if c = '\\' then unquoteAux true cs
    else (unquoteAux false cs).map (c :: ·)

/-- parsing.cc:269-300 `unquote`. -/
def unquote (cs : List Char) : Res (List Char) := unquoteAux false cs

/-- parsing.cc:303-310: a symbolic term is a string if its name starts and ends with a quote (a name
consisting of a single quote leads to an invalid span). -/
def evalName (name : String) : Res Sym :=
  let cs := name.toList
  if cs.head? = some '"' ∧ cs.getLast? = some '"' then
    if cs.length < 2 then .error .ub
    else (unquote (cs.tail.dropLast)).map (fun s => Sym.str (String.ofList s))
  else .ok (.fn name [] true)

/-- parsing.cc:249,251 `check_syntax(ea.type() == Number)`. -/
def Sym.toNum : Sym → Res Int
  | .num n => .ok n
  | _ => .error .runtime

section
variable (pow : Int → Int → Res Int)

mutual

/-- parsing.cc:246-253, 302-358 `evaluate`. The function `pow` stands for `safe_pow`
(parsing.cc:255-267), which is computed with floating point numbers by the C library. -/
def evaluate : Term → Res Sym
  | .sym name => evalName name
  | .num n => .ok (.num n)
  | .fn name [a, b] =>
    if name = "+" then do
      let x ← (← evaluate a).toNum; let y ← (← evaluate b).toNum; return .num (← safeAdd .val x y)
    else if name = "-" then do
      let x ← (← evaluate a).toNum; let y ← (← evaluate b).toNum; return .num (← safeSub .val x y)
    else if name = "*" then do
      let x ← (← evaluate a).toNum; let y ← (← evaluate b).toNum; return .num (← safeMul .val x y)
    else if name = "/" then do
      let x ← (← evaluate a).toNum; let y ← (← evaluate b).toNum; return .num (← safeDiv .val x y)
    else if name = "\\" then do
      let x ← (← evaluate a).toNum; let y ← (← evaluate b).toNum; return .num (← safeMod .val x y)
    else if name = "**" then do
      let x ← (← evaluate a).toNum; let y ← (← evaluate b).toNum; return .num (← pow x y)
    else if name = ".." then .error .runtime
    else do
      let x ← evaluate a; let y ← evaluate b; return .fn name [x, y] true
  | .fn name [a] =>
    if name = "-" then do
      match ← evaluate a with
      | .num n => return .num (← safeInv .val n)
      | .fn f args pos => if f.length > 0 then return .fn f args (!pos) else throw .runtime
      | .str _ => throw .runtime
    else do
      let x ← evaluate a; return .fn name [x] true
  | .fn name args => do return .fn name (← evaluateArgs args) true
  | .tuple args => do return .fn "" (← evaluateArgs args) true
  | .other _ => .error .runtime

/-- parsing.cc:349-353: evaluation of arguments from left to right. -/
def evaluateArgs : List Term → Res (List Sym)
  | [] => .ok []
  | t :: ts => do
    let x ← evaluate t
    let xs ← evaluateArgs ts
    return x :: xs

end
end

end Clingcon
