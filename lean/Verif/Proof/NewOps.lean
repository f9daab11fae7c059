import Verif.Model.Run
import Verif.Proof.Frame

/-! Effects of calls of the clause creator. -/
namespace Clingcon

variable {W W' : World} {r : Bool} {e : SEv}

theorem fresh_iff : Op.fresh.exec W = .ok (r, W') ↔ r = true ∧ W' = { W with nextLit := W.nextLit + 1, log := .lit W.nextLit :: W.log } := by
  unfold Op.exec
  simp only [bind_iff, discard_iff, newLit_iff, pure_iff]
  constructor
  · rintro ⟨_, W1, ⟨_, -, rfl⟩, rfl, rfl⟩; exact ⟨rfl, rfl⟩
  · rintro ⟨rfl, rfl⟩; exact ⟨(), _, ⟨_, rfl, rfl⟩, rfl, rfl⟩

theorem post_iff : (Op.post e).exec W = .ok (r, W') ↔ r = true ∧ W' = { W with log := e :: W.log } := by
  unfold Op.exec
  simp only [bind_iff, modify_iff, pure_iff]
  constructor
  · rintro ⟨_, W1, rfl, rfl, rfl⟩; exact ⟨rfl, rfl⟩
  · rintro ⟨rfl, rfl⟩; exact ⟨(), _, rfl, rfl, rfl⟩

theorem enable_iff : Op.enable.exec W = .ok (r, W') ↔ r = true ∧ W' = { W with book := { W.book with translateMinimize := true } } := by
  unfold Op.exec
  simp only [bind_iff, modify_iff, pure_iff]
  constructor
  · rintro ⟨_, W1, rfl, rfl, rfl⟩; exact ⟨rfl, rfl⟩
  · rintro ⟨rfl, rfl⟩; exact ⟨(), _, rfl, rfl, rfl⟩

theorem posted_order (h : e.posted = true) : ∀ l v k, e ≠ .order l v k := by
  rintro l v k rfl; cases h

theorem fr_fresh : Fr Op.fresh.exec := ⟨fun _ _ _ h => by rw [(fresh_iff.mp h).2]; rfl⟩
theorem fr_post : Fr (Op.post e).exec := ⟨fun _ _ _ h => by rw [(post_iff.mp h).2]; rfl⟩

end Clingcon
