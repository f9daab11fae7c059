/-
Model of `libclingcon/clingcon/util.hh` (arithmetic helpers) and of the value
limits in `libclingcon/clingcon/base.hh`.
-/
namespace Clingcon

/-- Outcome of C++ code that does not return normally.

`ub` is not a C++ exception: it marks evaluation of an operation whose behaviour
is undefined (signed overflow, division by zero, out of range access, violated
`assert`). -/
inductive Err where
  /-- `std::overflow_error` -/
  | overflow
  /-- `std::underflow_error` -/
  | underflow
  /-- `std::runtime_error` thrown by `throw_syntax_error`, option errors etc. -/
  | runtime
  /-- `std::logic_error` (e.g. "invalid solution") -/
  | logic
  /-- undefined behaviour -/
  | ub
  deriving DecidableEq, Repr

/-- Result of C++ code: a value or an abnormal outcome. -/
abbrev Res (α : Type) := Except Err α

/-- Limits of a fixed width integer type: `std::numeric_limits<Int>::min/max()`. -/
structure Limits where
  min : Int
  max : Int
  deriving DecidableEq, Repr

/-- Two's complement signed type with `n + 1` bits. -/
def Limits.signed (n : Nat) : Limits := ⟨-(2 ^ n : Int), 2 ^ n - 1⟩

/-- `val_t = int32_t` (base.hh:42). -/
def Limits.val : Limits := Limits.signed 31
/-- `sum_t = int64_t` (base.hh:43). -/
def Limits.sum : Limits := Limits.signed 63
/-- `nsum_t = int128_t` (base.hh:45). -/
def Limits.nsum : Limits := Limits.signed 127

/-- Value fits the type. -/
def Limits.Fits (L : Limits) (x : Int) : Prop := L.min ≤ x ∧ x ≤ L.max

instance (L : Limits) (x : Int) : Decidable (L.Fits x) := inferInstanceAs (Decidable (L.min ≤ x ∧ x ≤ L.max))

/-- base.hh:56-61 `MAX_VAL = std::numeric_limits<val_t>::max() / 2`. -/
def MAX_VAL : Int := Limits.val.max.tdiv 2
/-- base.hh:56-61 `MIN_VAL = -MAX_VAL`. -/
def MIN_VAL : Int := -MAX_VAL

/-- Result of a machine operation with exact value `x`: undefined behaviour if `x` does not fit
(C++ signed arithmetic). -/
def machine (L : Limits) (x : Int) : Res Int := if L.min ≤ x ∧ x ≤ L.max then .ok x else .error .ub

/-- C++ `a + b` in a signed type. -/
def mAdd (L : Limits) (a b : Int) : Res Int := machine L (a + b)
/-- C++ `a - b` in a signed type. -/
def mSub (L : Limits) (a b : Int) : Res Int := machine L (a - b)
/-- C++ `a * b` in a signed type. -/
def mMul (L : Limits) (a b : Int) : Res Int := machine L (a * b)
/-- C++ `-a` in a signed type. -/
def mNeg (L : Limits) (a : Int) : Res Int := machine L (-a)
/-- C++ `a / b` in a signed type (truncating). -/
def mDiv (L : Limits) (a b : Int) : Res Int := if b = 0 then .error .ub else machine L (a.tdiv b)
/-- C++ `a % b` in a signed type (sign of the dividend); undefined if `a / b` is not representable. -/
def mMod (L : Limits) (a b : Int) : Res Int :=
  if b = 0 then .error .ub else if L.Fits (a.tdiv b) then .ok (a.tmod b) else .error .ub

/-- util.hh:79-86 `floordiv`. `std::div` truncates; the exclusive or compares the signs. -/
def floordiv (n m : Int) : Int :=
  if (decide (n < 0) ^^ decide (m < 0)) && n.tmod m != 0 then n.tdiv m - 1 else n.tdiv m

/-- util.hh:88-95 `ceildiv`, as written in the code. -/
def ceildiv (n m : Int) : Int :=
  if (decide (n < 0) ^^ decide (m < 0)) && n.tmod m != 0 then n.tdiv m + 1 else n.tdiv m

/-- Conversion of a (possibly out of range) value to the unsigned type with `n` bits. -/
def toUnsigned (n : Nat) (x : Int) : Int := x.emod (2 ^ n)
/-- Conversion of an unsigned value to the signed type with `n` bits (two's complement). -/
def toSigned (n : Nat) (x : Int) : Int := if x < 2 ^ (n - 1) then x else x - 2 ^ n

/-- util.hh:74-77 `midpoint` for the signed type with `n` bits: all operations are in the unsigned
type. -/
def midpoint (n : Nat) (a b : Int) : Int :=
  toSigned n (toUnsigned n (toUnsigned n a + (toUnsigned n (toUnsigned n b - toUnsigned n a)) / 2))

/-- util.hh:393-404 `safe_add`. -/
def safeAdd (L : Limits) (a b : Int) : Res Int := do
  if b > 0 then
    let t ← mSub L L.max b
    if a > t then throw .overflow
  else if b < 0 then
    let t ← mSub L L.min b
    if a < t then throw .underflow
  mAdd L a b

/-- util.hh:408-419 `safe_sub`. -/
def safeSub (L : Limits) (a b : Int) : Res Int := do
  if b > 0 then
    let t ← mAdd L L.min b
    if a < t then throw .underflow
  else if b < 0 then
    let t ← mAdd L L.max b
    if a > t then throw .overflow
  mSub L a b

/-- util.hh:423-442 `safe_mul`. -/
def safeMul (L : Limits) (a b : Int) : Res Int := do
  if a > 0 then
    if b > 0 then
      let t ← mDiv L L.max b
      if a > t then throw .overflow
    else
      let t ← mDiv L L.min a
      if b < t then throw .underflow
  else
    if b > 0 then
      let t ← mDiv L L.min b
      if a < t then throw .underflow
    else if a < 0 then
      let t ← mDiv L L.max a
      if b < t then throw .overflow
  mMul L a b

/-- util.hh:445-456 `safe_div`. -/
def safeDiv (L : Limits) (a b : Int) : Res Int := do
  if a = L.min ∧ b = -1 then throw .overflow
  if b = 0 then
    if a < 0 then throw .underflow
    throw .overflow
  mDiv L a b

/-- util.hh:460-471 `safe_mod`. -/
def safeMod (L : Limits) (a b : Int) : Res Int := do
  if a = L.min ∧ b = -1 then throw .overflow
  if b = 0 then
    if a < 0 then throw .underflow
    throw .overflow
  mMod L a b

/-- util.hh:474-479 `safe_inv`. -/
def safeInv (L : Limits) (a : Int) : Res Int := do
  if a = L.min then throw .overflow
  mNeg L a

end Clingcon
