import Verif.Model.Optimize
import Verif.Spec.Given
import Verif.Spec.Runs

/-! Solving with several threads and a shared bound of the objective. -/
namespace Clingcon.Spec
open Clingcon

/-- A model that has been reported by a thread: the truth values of literals and the values of variables. -/
structure Report where
  thread : Nat
  truth : Nat → Bool
  val : Nat → Int

/-- The state of the propagator while solving. -/
structure OState where
  /-- the solvers of the threads (propagator.hh:207) -/
  threads : Nat → World
  /-- the literals passed to the threads -/
  told : Nat → List Told
  /-- the shared bound and the recorded cost -/
  opt : OptState
  /-- the values that the shared bound had before -/
  olds : List Int
  /-- the models reported, the last one first -/
  models : List Report

/-- The thread `t` is in a new state. -/
def OState.set (S : OState) (t : Nat) (W : World) (ts : List Told) : OState :=
  { S with threads := Function.update S.threads t W, told := Function.update S.told t ts }

/-- The values reported by a solver. -/
def values (W : World) (v : Nat) : Int := (W.getValue v).getD 0

/-- A total assignment has been passed: for each order literal the one of the literal and its complement that is true. -/
def PassedAll (β : Nat → Bool) (W : World) (ts : List Told) : Prop :=
  ∃ t ts', ts = t :: ts' ∧ ∀ v k l, OrdLit W v k l → (litTrue β l → t.done l) ∧ (¬ litTrue β l → t.done (-l))

/-- The calls during search besides `check`. -/
def searching : Op → Prop
  | .propagate .. => True
  | .undo => True
  | .decide .. => True
  | _ => False

/-- The bounds of all variables are in the range of the type of values. -/
def ranged (W : World) : Prop := ∀ (v : Nat) (vs : VarState), W.vars[v]? = some vs → Limits.val.Fits vs.lower ∧ Limits.val.Fits vs.upper

/-- The states reached while solving with the objective `m`, which is the constraint with number `k`, from a state `S0`. Threads are
interleaved in any way. The condition `E` is assumed for the Boolean solver of each thread.
* Threads may propagate, undo, and decide.
* Checks of partial assignments read the shared bound without synchronization, that is, they may get any earlier value (propagator.cc:516).
* A total assignment `β` is checked while the thread holds the lock for models, so that it reads the last value of the bound. If all order literals of the
  thread have been passed to it and the check succeeds without introducing literals, then the values are reported by calling `on_model` before the lock is
  released (propagator.cc:284-292). -/
inductive Solve (k : Nat) (m : MinCon) (E : Nat → CC → World → List Told → Prop) (S0 : OState) : OState → Prop
  | start : Solve k m E S0 S0
  | call {S t op r W'} : Solve k m E S0 S → searching op → op.pre (S.threads t) → feedPre (S.told t) (S.threads t) op →
      (∀ cc, opEnv op = some cc → E t cc (S.threads t) (S.told t)) → op.exec (S.threads t) = .ok (r, W') →
      Solve k m E S0 (S.set t W' (toldAfter op (S.threads t) W' r (S.told t)))
  | check {S t cc total b ck cs fuel W'} : Solve k m E S0 S → b ∈ S.opt.bound :: S.olds → (S.threads t).level ≤ cc.level →
      E t cc (S.threads t) (S.told t) → propCheck cc total (some (k, m)) b ck cs fuel (S.threads t) = .ok ((), W') →
      Solve k m E S0 (S.set t W' (S.told t))
  | model {S t cc total ck fuel W1 W' β c} : Solve k m E S0 S → (S.threads t).level ≤ cc.level →
      (cc.level = (S.threads t).level ∨ (S.threads t).factmap = []) → E t cc (S.threads t) (S.told t) →
      boundAndCheck cc (some (k, m)) S.opt.bound ck fuel (S.threads t) = .ok (true, W1) → total W1.log = true →
      propCheck cc total (some (k, m)) S.opt.bound ck true fuel (S.threads t) = .ok ((), W') → W1.nextLit = (S.threads t).nextLit →
      W'.log = W1.log → litTrue β 1 →
      (∀ c ∈ W1.book.cs, litTrue β c.con.lit → cc.isTrue W1.log c.con.lit = true) → PassedAll β W1 (S.told t) → ranged W1 → W'.minimizeValue m = some c →
      Solve k m E S0 { S.set t W' (S.told t) with opt := S.opt.onModel c, olds := S.opt.bound :: S.olds, models := ⟨t, β, values W'⟩ :: S.models }

/-- Before solving: the bound has been reset, and each thread is in a state reached by adding variables and constraints (or in previous solve calls), where the
objective is the constraint with number `k`; constraints marked as inactive exist and are not objectives. -/
structure Ready (n : Int) (k : Nat) (m : MinCon) (S : OState) : Prop where
  bound : S.opt.bound = NO_BOUND
  olds : S.olds = []
  models : S.models = []
  reach : ∀ t, ∃ ops, Fed ops (World.init n) [Told.none] (S.threads t) (S.told t)
  objective : ∀ t, ∃ c, (S.threads t).book.cs[k]? = some c ∧ c.alive = true ∧ c.con = .minimize m.adjust m.elems
  inactive : ∀ t, ∀ i ∈ (S.threads t).book.inactive, ∃ c, (S.threads t).book.cs[i]? = some c ∧ c.alive = true ∧ ∀ a es, c.con ≠ .minimize a es

end Clingcon.Spec
