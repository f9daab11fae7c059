import Verif.Model.Util

/-! Model of `IntervalSet` in `libclingcon/clingcon/util.hh:230-384`.

`std::map<T, T>` is modelled by the list of its key/value pairs in iteration order (increasing keys).
An entry `(x, y)` stands for the half open interval `[x, y)`. -/
namespace Clingcon

/-- The member `map_` (util.hh:383). -/
abbrev IntervalSet := List (Int × Int)

namespace IntervalSet

/-- `std::map::emplace_hint(it, k, v)` (util.hh:356): inserts in key order, nothing happens if the key
is already present; the hint only affects performance. -/
def emplace (k v : Int) : IntervalSet → IntervalSet
  | [] => [(k, v)]
  | (x, y) :: l =>
    if k < x then (k, v) :: (x, y) :: l else if x < k then (x, y) :: emplace k v l else (x, y) :: l

/-- util.hh:327-356: the loop of `add`. The first argument is the part of the map before `it`, in
reverse order; `suf` is the part of the map from `it` on. -/
def addLoop : List (Int × Int) → Int → Int → IntervalSet → IntervalSet
  | [], a, b, suf => emplace a b suf
  | (x, y) :: pre, a, b, suf =>
    if y < a then emplace a b (pre.reverse ++ (x, y) :: suf)
    else
      let b := if b < y then y else b
      if x < a then pre.reverse ++ (x, b) :: suf
      else addLoop pre a b suf

/-- util.hh:318-357 `add`; `upper_bound(b)` splits the map after the last key `≤ b`. -/
def add (s : IntervalSet) (a b : Int) : IntervalSet :=
  if ¬ a < b then s
  else addLoop (s.takeWhile (fun p => decide (p.1 ≤ b))).reverse a b (s.dropWhile (fun p => decide (p.1 ≤ b)))

/-- util.hh:360-364 `extend`. -/
def extend (s other : IntervalSet) : IntervalSet := other.foldl (fun s p => s.add p.1 p.2) s

/-- util.hh:261-276 `contains(a, b)`. -/
def containsInterval (s : IntervalSet) (a b : Int) : Bool :=
  match (s.takeWhile (fun p => decide (p.1 < b))).getLast? with
  | none => false
  | some (x, y) => !(decide (a < x)) && !(decide (y < b))

/-- util.hh:279-297 `intersects(a, b)`. -/
def intersects (s : IntervalSet) (a b : Int) : Bool :=
  if b ≤ a then false
  else
    match (s.takeWhile (fun p => decide (p.1 < b))).getLast? with
    | none => false
    | some (_, y) => decide (y > a)

/-- util.hh:300-315 `contains(a)`. -/
def contains (s : IntervalSet) (a : Int) : Bool :=
  match (s.takeWhile (fun p => decide (p.1 ≤ a))).getLast? with
  | none => false
  | some (_, y) => decide (a < y)

/-- Integers `x, x + 1, ..., y - 1`: the inner loop of `enumerate` (util.hh:374). -/
def range (x y : Int) : List Int := (List.range (y - x).toNat).map (fun (i : Nat) => x + (i : Int))

/-- util.hh:372-380 `enumerate`: the values in the order they are passed to the callback. -/
def values (s : IntervalSet) : List Int := s.flatMap (fun p => range p.1 p.2)

end IntervalSet
end Clingcon
