import Lean.Meta.Tactic.Simp.RegisterCommand

/-! Simp set for unfolding successful runs of computations of the solver. -/

/-- Unfolding of successful runs. -/
register_simp_attr smok
