import Verif.Model.Builder

/-! Model of `VarState` in `libclingcon/clingcon/solver.hh:154-570`. -/
namespace Clingcon

/-- solver.hh:48 `MOGRIFY_FACTOR`. -/
def MOGRIFY_FACTOR : Int := 10

/-- The union of `litmap_` and `litvec_` (solver.hh:566-569) together with `offset_`, which tells which
one is active (solver.hh:563). A `std::map` is modelled by the list of its key/value pairs in increasing
order of keys, a vector by the list of its elements. -/
inductive Table where
  | map (m : List (Int × Lit))
  | vec (offset : Int) (v : List Lit)
  deriving DecidableEq, Repr

/-- `std::map::emplace(k, v)`: existing entries are kept. -/
def mapEmplace (k : Int) (v : Lit) : List (Int × Lit) → List (Int × Lit)
  | [] => [(k, v)]
  | (x, y) :: m => if k < x then (k, v) :: (x, y) :: m else if x < k then (x, y) :: mapEmplace k v m else (x, y) :: m

/-- `std::map::operator[](k) = v`: existing entries are replaced. -/
def mapSet (k : Int) (v : Lit) : List (Int × Lit) → List (Int × Lit)
  | [] => [(k, v)]
  | (x, y) :: m => if k < x then (k, v) :: (x, y) :: m else if x < k then (x, y) :: mapSet k v m else (k, v) :: m

/-- `std::map::erase(k)`. -/
def mapErase (k : Int) (m : List (Int × Lit)) : List (Int × Lit) := m.filter (fun p => p.1 != k)

/-- `std::map::find(k)`. -/
def mapFind (k : Int) (m : List (Int × Lit)) : Option Lit := m.lookup k

/-- Read access `litvec_[value - offset_]`; an access outside of the vector is undefined behaviour. -/
def vecGet (offset : Int) (v : List Lit) (value : Int) : Res Lit :=
  if offset ≤ value then
    match v[(value - offset).toNat]? with
    | some l => .ok l
    | none => .error .ub
  else .error .ub

/-- Write access `litvec_[value - offset_] = lit`. -/
def vecSet (offset : Int) (v : List Lit) (value : Int) (lit : Lit) : Res (List Lit) :=
  if offset ≤ value ∧ (value - offset).toNat < v.length then .ok (v.set (value - offset).toNat lit) else .error .ub

/-- solver.hh:159-570. The members `lower_bound_stack_` and `upper_bound_stack_` are lists with the last
element (`back`) at the head; `var_` is the position in the vector of the solver. -/
structure VarState where
  lower : Int
  upper : Int
  lowerStack : List (Nat × Int) := []
  upperStack : List (Nat × Int) := []
  table : Table := .map []
  deriving DecidableEq, Repr

namespace VarState

/-- solver.hh:285 `push_lower`. -/
def pushLower (vs : VarState) (level : Nat) : VarState := { vs with lowerStack := (level, vs.lower) :: vs.lowerStack }
/-- solver.hh:313 `push_upper`. -/
def pushUpper (vs : VarState) (level : Nat) : VarState := { vs with upperStack := (level, vs.upper) :: vs.upperStack }

/-- solver.hh:287-289 `pushed_lower`. -/
def pushedLower (vs : VarState) (level : Nat) : Bool :=
  match vs.lowerStack with
  | [] => false
  | (l, _) :: _ => l == level
/-- solver.hh:315-317 `pushed_upper`. -/
def pushedUpper (vs : VarState) (level : Nat) : Bool :=
  match vs.upperStack with
  | [] => false
  | (l, _) :: _ => l == level

/-- solver.hh:291-295 `pop_lower`; popping from an empty stack is undefined. -/
def popLower (vs : VarState) : Res VarState :=
  match vs.lowerStack with
  | [] => .error .ub
  | (_, b) :: st => .ok { vs with lower := b, lowerStack := st }
/-- solver.hh:319-323 `pop_upper`. -/
def popUpper (vs : VarState) : Res VarState :=
  match vs.upperStack with
  | [] => .error .ub
  | (_, b) :: st => .ok { vs with upper := b, upperStack := st }

/-- solver.hh:297-299 `min_bound`. -/
def minBound (vs : VarState) : Int := match vs.lowerStack.getLast? with | none => vs.lower | some p => p.2
/-- solver.hh:325-327 `max_bound`. -/
def maxBound (vs : VarState) : Int := match vs.upperStack.getLast? with | none => vs.upper | some p => p.2

/-- solver.hh:340 `is_assigned`. -/
def isAssigned (vs : VarState) : Bool := vs.lower == vs.upper

/-- solver.hh:342 `size`. -/
def size (vs : VarState) : Int := vs.maxBound - vs.minBound

/-- solver.hh:524-526: the loop filling the vector. -/
def fillVec (offset : Int) : List (Int × Lit) → List Lit → Res (List Lit)
  | [], v => .ok v
  | (val, lit) :: m, v => do
    let v ← vecSet offset v val lit
    fillVec offset m v

/-- solver.hh:516-534 `mogrify_`: the result tells whether the representation has been switched.
Accessing the first or last element of an empty map is undefined. -/
def mogrify (vs : VarState) (m : List (Int × Lit)) : Res (Option Table) :=
  if (m.length : Int) > vs.size.tdiv MOGRIFY_FACTOR then
    match m.head?, m.getLast? with
    | some f, some b =>
      if vs.minBound ≤ f.1 ∧ b.1 < vs.maxBound then do
        let v ← fillVec vs.minBound m (List.replicate vs.size.toNat 0)
        return some (.vec vs.minBound v)
      else .ok none
    | _, _ => .error .ub
  else .ok none

/-- solver.hh:345-350 `get_or_add_literal`: the reference is modelled by its current value; the member
is written with `writeLiteral`. -/
def getOrAddLiteral (vs : VarState) (value : Int) : Res (Lit × VarState) :=
  match vs.table with
  | .map m => do
    match ← vs.mogrify m with
    | some (.vec off v) => return (← vecGet off v value, { vs with table := .vec off v })
    | _ => return ((mapFind value (mapEmplace value 0 m)).getD 0, { vs with table := .map (mapEmplace value 0 m) })
  | .vec off v => do return (← vecGet off v value, vs)

/-- Assignment through the reference returned by `get_or_add_literal`. -/
def writeLiteral (vs : VarState) (value : Int) (lit : Lit) : Res VarState :=
  match vs.table with
  | .map m => .ok { vs with table := .map (mapSet value lit m) }
  | .vec off v => do return { vs with table := .vec off (← vecSet off v value lit) }

/-- solver.hh:353-358 `has_literal`. -/
def hasLiteral (vs : VarState) (value : Int) : Res Bool :=
  match vs.table with
  | .map m => .ok (mapFind value m).isSome
  | .vec off v => do return (← vecGet off v value) != 0

/-- solver.hh:360-373 `get_literal`. -/
def getLiteral (vs : VarState) (value : Int) : Res (Option Lit) :=
  match vs.table with
  | .map m => .ok (mapFind value m)
  | .vec off v => do
    let l ← vecGet off v value
    return if l != 0 then some l else none

/-- solver.hh:376-382 `set_literal`. -/
def setLiteral (vs : VarState) (value : Int) (lit : Lit) : Res VarState :=
  match vs.table with
  | .map m => do
    match ← vs.mogrify m with
    | some (.vec off v) => return { vs with table := .vec off (← vecSet off v value lit) }
    | _ => return { vs with table := .map (mapSet value lit m) }
  | .vec off v => do return { vs with table := .vec off (← vecSet off v value lit) }

/-- solver.hh:384-390 `unset_literal`. -/
def unsetLiteral (vs : VarState) (value : Int) : Res VarState :=
  match vs.table with
  | .map m => .ok { vs with table := .map (mapErase value m) }
  | .vec off v => do return { vs with table := .vec off (← vecSet off v value 0) }

/-- solver.hh:536-542 `get_val_`: the values belonging to the positions of a vector. -/
def indexed (offset : Int) (v : List Lit) : List (Int × Lit) := v.zipIdx.map (fun p => (offset + p.2, p.1))

/-- The traversals `with`, `with_lt`, ... (solver.hh:398-437) call a function with iterators; here they
give the list of pairs of values and literals in the order of iteration. `call_vec_` (solver.hh:544-553)
skips zeros. The clamping `min(max(0, i), size)` of offsets is `toNat` together with `take`/`drop`. -/
def «with» (vs : VarState) : List (Int × Lit) :=
  match vs.table with
  | .map m => m
  | .vec off v => (indexed off v).filter (fun p => p.2 != 0)

/-- solver.hh:406-412 `with_lt`; a reverse iterator made from an iterator starts at the element before. -/
def withLt (vs : VarState) (value : Int) : List (Int × Lit) :=
  match vs.table with
  | .map m => (m.takeWhile (fun p => decide (p.1 < value))).reverse
  | .vec off v => ((indexed off v).take (value - off).toNat).reverse.filter (fun p => p.2 != 0)

/-- solver.hh:414-420 `with_le`. -/
def withLe (vs : VarState) (value : Int) : List (Int × Lit) :=
  match vs.table with
  | .map m => (m.takeWhile (fun p => decide (p.1 ≤ value))).reverse
  | .vec off v => ((indexed off v).take (value - off + 1).toNat).reverse.filter (fun p => p.2 != 0)

/-- solver.hh:422-428 `with_gt`. -/
def withGt (vs : VarState) (value : Int) : List (Int × Lit) :=
  match vs.table with
  | .map m => m.dropWhile (fun p => decide (p.1 ≤ value))
  | .vec off v => ((indexed off v).drop (value - off + 1).toNat).filter (fun p => p.2 != 0)

/-- solver.hh:431-437 `with_ge`. -/
def withGe (vs : VarState) (value : Int) : List (Int × Lit) :=
  match vs.table with
  | .map m => m.dropWhile (fun p => decide (p.1 < value))
  | .vec off v => ((indexed off v).drop (value - off).toNat).filter (fun p => p.2 != 0)

/-- solver.hh:440-446 `lit_lt`. -/
def litLt (vs : VarState) (value : Int) : Lit := match (vs.withLt value).head? with | some p => p.2 | none => 0
/-- solver.hh:448-454 `lit_le`. -/
def litLe (vs : VarState) (value : Int) : Lit := match (vs.withLe value).head? with | some p => p.2 | none => 0
/-- solver.hh:456-462 `lit_gt`. -/
def litGt (vs : VarState) (value : Int) : Lit := match (vs.withGt value).head? with | some p => p.2 | none => 0
/-- solver.hh:464-470 `lit_ge`. -/
def litGe (vs : VarState) (value : Int) : Lit := match (vs.withGe value).head? with | some p => p.2 | none => 0

/-- solver.hh:473-499 `order_lit_lt`, `order_lit_le`, `order_lit_gt`, `order_lit_ge`; pairs of value and
literal (the code has them in the other order). -/
def orderLitLt (vs : VarState) (value : Int) : Option (Int × Lit) := (vs.withLt value).head?
/-- solver.hh:480-485. -/
def orderLitLe (vs : VarState) (value : Int) : Option (Int × Lit) := (vs.withLe value).head?
/-- solver.hh:487-492. -/
def orderLitGt (vs : VarState) (value : Int) : Option (Int × Lit) := (vs.withGt value).head?
/-- solver.hh:494-499. -/
def orderLitGe (vs : VarState) (value : Int) : Option (Int × Lit) := (vs.withGe value).head?

/-- solver.hh:502-505 `lit_prev`. -/
def litPrev (vs : VarState) (value : Int) : Lit := if vs.litLt value ≠ 0 then vs.litLt value else -TRUE_LIT
/-- solver.hh:508-511 `lit_succ`. -/
def litSucc (vs : VarState) (value : Int) : Lit := if vs.litGt value ≠ 0 then vs.litGt value else TRUE_LIT

end VarState
end Clingcon
