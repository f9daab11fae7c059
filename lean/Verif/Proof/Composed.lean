import Verif.Model.Handing
import Verif.Proof.HandedCon

/-! Parser and constraint builder together. -/
namespace Clingcon
open Spec
set_option linter.unusedVariables false

theorem holds_local {n : Int} {τ : Nat → Int} {e : Event} (h : Event.wf n e) {β β' : Nat → Bool} (hb : agreeBelow n β β') (hh : holds β τ e) :
    holds β' τ e := by
  cases e with
  | clause c =>
    obtain ⟨l, h1, h2⟩ := hh
    exact ⟨l, h1, (litTrue_congr hb (h l h1)).1 h2⟩
  | constraint lit es r s => simpa only [holds, attached, litTrue_congr hb h.2.1] using hh
  | nonlinear lit ca a b cc c r s => simpa only [holds, attached, litTrue_congr hb h.2] using hh
  | distinct lit es => simpa only [holds, litTrue_congr hb h.2.1] using hh
  | disjoint lit es => simpa only [holds, litTrue_congr hb h.2.1] using hh
  | dom lit v d => simpa only [holds, litTrue_congr hb h.2] using hh
  | _ => trivial

theorem pspec_events {env : PEnv} {τ : Nat → Int} {n : Int} {b : Bool} {s' : PState} : ∀ (evs : List Event) (Base : (Nat → Bool) → Prop) (s : PState),
    n ≤ s.nextLit → POracle env τ s.log s.nextLit Base → (∀ e ∈ evs, properEv n e) →
    (∀ e ∈ evs, ∀ lit coab a b coc c rhs, e = .nonlinear lit coab a b coc c rhs true → coab = 0) →
    bEvents env evs s = .ok (b, s') → PSpec τ Base s b s' (fun β => ∀ e ∈ evs, holds β τ e) := by
  intro evs
  induction evs with
  | nil =>
    intro Base s _ _ _ _ h
    obtain ⟨rfl, rfl⟩ := pureP_ok h
    exact (pspec_true Base s).congr fun β _ => by simp
  | cons e es ih =>
    intro Base s hn ho hw hp h
    refine (pspec_and (P1 := fun β => holds β τ e) (P2 := fun β => ∀ e ∈ es, holds β τ e) ho ?_ h ?_ ?_).congr fun β _ => by simp
    · intro β β' hb hh e he
      exact holds_local (properEv_wf (properEv_mono (hw e (List.mem_cons_of_mem _ he)) hn)) hb (hh e he)
    · intro b1 s1 k
      exact pspec_event ho (properEv_wf (properEv_mono (hw e List.mem_cons_self) hn)) (hp e List.mem_cons_self) k
    · intro s1 Base' hs hb ho' k
      exact ih Base' s1 (le_trans hn hs) ho' (fun e he => hw e (List.mem_cons_of_mem _ he)) (fun e he => hp e (List.mem_cons_of_mem _ he)) k

theorem pneat_events {env : PEnv} (hsort : ∀ l, (env.sort l).Perm l) {n : Int} (hn : 1 < n) : ∀ (evs : List Event), (∀ e ∈ evs, properEv n e) →
    PNeat n (bEvents env evs) := by
  intro evs
  induction evs with
  | nil => exact fun _ => pneat_pure
  | cons e es ih =>
    intro hw
    exact pneat_and (pneat_event hsort hn (hw e List.mem_cons_self)) (ih fun e he => hw e (List.mem_cons_of_mem _ he))

/-- Capturing in two steps. -/
theorem captures_comp {τ : Nat → Int} {Base : (Nat → Bool) → Prop} {n n1 n2 : Int} {evs : List Event} {pevs : List PEv} {b1 b2 : Bool}
    {P : (Nat → Bool) → Prop} (hloc : ∀ β β', agreeBelow n β β' → Base β → Base β') (c1 : Captures τ Base n n1 evs b1 P)
    (c2 : PCaptures τ Base n1 n2 pevs b2 (fun β => ∀ e ∈ evs, holds β τ e)) : PCaptures τ Base n n2 pevs (b1 && b2) P where
  mono := le_trans c1.mono c2.mono
  sound β hb hp := by
    obtain ⟨β1, a1, k1⟩ := c1.sound β hb hp
    obtain ⟨β2, a2, k2⟩ := c2.sound β1 (hloc _ _ a1 hb) k1
    exact ⟨β2, fun k hk => (a1 k hk).trans (a2 k (lt_of_lt_of_le hk c1.mono)), k2⟩
  complete β hb h := c1.complete β hb (c2.complete β hb h)
  unique β β' hb ha h h' := by
    have hb' := hloc _ _ ha hb
    exact c2.unique β β' hb (c1.unique β β' hb ha (c2.complete β hb h) (c2.complete β' hb' h')) h h'
  locality := c2.locality
  conflict hf β hb hp := by
    cases b1 with
    | false => exact c1.conflict rfl β hb hp
    | true =>
      obtain ⟨β1, a1, k1⟩ := c1.sound β hb hp
      exact c2.conflict (by simpa using hf) β1 (hloc _ _ a1 hb) k1

end Clingcon
