import Verif.Model.Parsing

/-! Model of the rewriting of non-ground statements, `libclingcon/src/parsing.cc:72-240,886-894`.

clingo's abstract syntax trees are modelled by an inductive type with one constructor for each type
of node the code inspects; all other types of nodes are `other`. Locations are left out. -/
namespace Clingcon

/-- `Clingo::AST::Sign`. -/
inductive Sign where
  | none
  | neg
  | dneg
  deriving DecidableEq, Repr

/-- `Clingo::AST::Node`. A theory atom has an optional guard: if `op` is `none`, then there is no
guard and `rhs` is meaningless. A value of a Boolean constant different from zero is one. -/
inductive Node where
  | rule (head : Node) (body : List Node)
  | literal (sign : Sign) (atom : Node)
  | boolConst (value : Bool)
  | theoryAtom (term : Node) (elems : List Node) (op : Option String) (rhs : Node)
  | element (terms : List Node) (cond : List Node)
  | symTerm (s : Sym)
  | var (name : String)
  | function (name : String) (args : List Node) (ext : Bool)
  | other (kind : String) (children : List Node)

/-- parsing.cc:49-69 `negate_relation` on strings. -/
def negateRel (op : String) : Res String :=
  if op = "=" then .ok "!="
  else if op = "!=" then .ok "="
  else if op = "<" then .ok ">="
  else if op = "<=" then .ok ">"
  else if op = ">" then .ok "<="
  else if op = ">=" then .ok "<"
  else .error .runtime

/-- parsing.cc:73-90 `match` on nodes. A symbolic term has no attribute `term`, so that the access in
line 76 fails (the parser of clingo never produces such a node here). -/
def matchNode (ast : Node) (names : List String) : Res Bool :=
  match ast with
  | .symTerm _ => .error .runtime
  | .function name args ext =>
    if ext then .ok false
    else if !args.isEmpty then .ok false
    else .ok (names.any (fun s => name == s))
  | _ => .ok false

/-- parsing.cc:113-137: the loop over the body. `front` are the body literals passed already. -/
def shiftBody (ast : Node) (front : List Node) : List Node → Res Node
  | [] => .ok ast
  | lit :: rest =>
    match lit with
    | .literal sign (.theoryAtom term elems op rhs) => do
      if !(← matchNode term ["sum", "diff"]) then shiftBody ast (front ++ [lit]) rest
      else
        match op with
        | none => .error .runtime
        | some rel =>
          if sign ≠ .neg then
            let rel' ← negateRel rel
            .ok (.rule (.theoryAtom term elems (some rel') rhs) (front ++ rest))
          else .ok (.rule (.theoryAtom term elems (some rel) rhs) (front ++ rest))
    | _ => shiftBody ast (front ++ [lit]) rest

/-- parsing.cc:92-139 `shift_rule`. -/
def shiftRule (ast : Node) : Res Node :=
  match ast with
  | .rule (.literal sign (.boolConst value)) body =>
    if (value = false ∧ sign = .neg) ∨ (value = true ∧ sign ≠ .neg) then .ok ast
    else shiftBody ast [] body
  | _ => .ok ast

/-- parsing.cc:141-162 `tag_terms`. -/
def tagTerm (ast : Node) (tag : String) : Res Node :=
  match ast with
  | .symTerm _ => .error .runtime
  | .function name args ext => .ok (.function ("__" ++ name ++ tag) args ext)
  | _ => .error .runtime

/-- parsing.cc:164-168: insertion into `std::set<char const *, CStrCmp>`. -/
def insertName (x : String) : List String → List String
  | [] => [x]
  | y :: ys => if x < y then x :: y :: ys else if x = y then y :: ys else y :: insertName x ys

mutual
/-- parsing.cc:170-177 `collect_variables` for one node: visits the node and all nodes below it. -/
def collectVars (vars : List String) : Node → List String
  | .var name => insertName name vars
  | .rule head body => collectAll (collectVars vars head) body
  | .literal _ atom => collectVars vars atom
  | .boolConst _ => vars
  | .theoryAtom term elems _ rhs => collectVars (collectAll (collectVars vars term) elems) rhs
  | .element terms cond => collectAll (collectAll vars terms) cond
  | .symTerm _ => vars
  | .function _ args _ => collectAll vars args
  | .other _ children => collectAll vars children
/-- parsing.cc:179-185 `collect_variables` for a range of nodes. -/
def collectAll (vars : List String) : List Node → List String
  | [] => vars
  | n :: ns => collectAll (collectVars vars n) ns
end

/-- parsing.cc:190-210 `TheoryRewriter::rewrite_tuple`. The type of the node is not inspected; the
accesses to its attributes fail if it is not an element. -/
def rewriteTuple (element : Node) (number : Int) : Res Node :=
  match element with
  | .element terms cond =>
    if terms.length ≠ 1 then .error .runtime
    else
      let vars := collectAll [] cond
      let vars := (collectAll [] terms).foldl (fun vs x => vs.erase x) vars
      let vars := vars.erase "_"
      let terms := if number ≥ 0 then terms ++ [.symTerm (.num number)] else terms
      .ok (.element (terms ++ vars.map .var) cond)
  | _ => .error .runtime

/-- parsing.cc:227-230: the loop over the elements, with the counter. The counter is increased after
each element, starting with zero or, if there is just one element, with minus one. -/
def rewriteElems (number : Int) : List Node → Res (List Node)
  | [] => .ok []
  | e :: es => do
    let e' ← rewriteTuple e number
    let es' ← rewriteElems (number + 1) es
    .ok (e' :: es')

/-- parsing.cc:223: names of atoms whose elements are rewritten. -/
def rewrittenNames : List String := ["sum", "nsum", "diff", "distinct", "disjoint", "minimize", "maximize"]

mutual
/-- parsing.cc:213-238 `TheoryRewriter::operator()`. The argument and the second component of the
result are the member `in_literal`. -/
def rewriteNode (inLit : Bool) : Node → Res (Node × Bool)
  | .literal sign atom => do
    let (atom', _) ← rewriteNode true atom
    .ok (.literal sign atom', false)
  | .theoryAtom term elems op rhs => do
    if ← matchNode term rewrittenNames then
      let elems' ← rewriteElems (if elems.length > 1 then 0 else -1) elems
      if ← matchNode term ["sum", "nsum", "diff"] then
        let term' ← tagTerm term (if inLit then "_b" else "_h")
        .ok (.theoryAtom term' elems' op rhs, inLit)
      else .ok (.theoryAtom term elems' op rhs, inLit)
    else
      let (term', inLit) ← rewriteNode inLit term
      let (elems', inLit) ← rewriteNodes inLit elems
      let (rhs', inLit) ← rewriteNode inLit rhs
      .ok (.theoryAtom term' elems' op rhs', inLit)
  | .rule head body => do
    let (head', inLit) ← rewriteNode inLit head
    let (body', inLit) ← rewriteNodes inLit body
    .ok (.rule head' body', inLit)
  | .element terms cond => do
    let (terms', inLit) ← rewriteNodes inLit terms
    let (cond', inLit) ← rewriteNodes inLit cond
    .ok (.element terms' cond', inLit)
  | .function name args ext => do
    let (args', inLit) ← rewriteNodes inLit args
    .ok (.function name args' ext, inLit)
  | .other kind children => do
    let (children', inLit) ← rewriteNodes inLit children
    .ok (.other kind children', inLit)
  | .boolConst v => .ok (.boolConst v, inLit)
  | .symTerm s => .ok (.symTerm s, inLit)
  | .var x => .ok (.var x, inLit)
/-- `transform_ast` on a sequence of nodes. -/
def rewriteNodes (inLit : Bool) : List Node → Res (List Node × Bool)
  | [] => .ok ([], inLit)
  | n :: ns => do
    let (n', inLit) ← rewriteNode inLit n
    let (ns', inLit) ← rewriteNodes inLit ns
    .ok (n' :: ns', inLit)
end

/-- parsing.cc:886-894 `transform` on one unpooled statement; the result is passed to the callback.
`transform_ast` applies the rewriter to the children of the statement; for a statement (which is neither
a literal nor a theory atom) this is what the rewriter does itself. -/
def transformOne (shift : Bool) (ast : Node) : Res Node := do
  let ast ← if shift then shiftRule ast else .ok ast
  let (ast, _) ← rewriteNode false ast
  .ok ast

/-- parsing.cc:886-894 `transform`: unpooling is done by clingo and is a parameter. -/
def transform (unpool : Node → List Node) (shift : Bool) (ast : Node) : Res (List Node) :=
  (unpool ast).mapM (transformOne shift)

end Clingcon
