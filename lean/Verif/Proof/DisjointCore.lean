import Verif.Proof.Leave

/-! Propagation of disjoint constraints only reorders the intervals and changes what is recorded about them. -/
set_option linter.unusedSimpArgs false
namespace Clingcon
open Spec VarState

variable {cc : CC} {clit : Int} {ty : Bool} {W W' : World}

/-- What is not changed by propagation. -/
def core (i : DInterval) : DInterval := { i with u := 0, lastLeft := 0, lastRight := 0 }

/-- Every value returned has a property. -/
def Ret {α : Type} (x : SM α) (Q : α → Prop) : Prop := ∀ W a W', x W = .ok (a, W') → Q a

theorem Ret.bind' {α γ : Type} {x : SM α} {f : α → SM γ} {P : α → Prop} {Q : γ → Prop} (h1 : Ret x P) (h2 : ∀ a, P a → Ret (f a) Q) : Ret (x >>= f) Q := by
  intro W c W' h
  obtain ⟨a, W1, h3, h4⟩ := SM.bind_ok h
  exact h2 a (h1 _ _ _ h3) _ _ _ h4

theorem Ret.any {α γ : Type} {x : SM α} {f : α → SM γ} {Q : γ → Prop} (h2 : ∀ a, Ret (f a) Q) : Ret (x >>= f) Q :=
  Ret.bind' (P := fun _ => True) (fun _ _ _ _ => trivial) (fun a _ => h2 a)

theorem Ret.pure' {α : Type} {a : α} {Q : α → Prop} (h : Q a) : Ret (Pure.pure a : SM α) Q := by
  intro W b W' hb
  obtain ⟨rfl, -⟩ := pure_iff.mp hb
  exact h

theorem disjointBound_core {reason : List Int} {i : DInterval} {b : Int} {p : Bool × DInterval} (h : disjointBound cc ty reason i b W = .ok (p, W')) : core p.2 = core i := by
  refine (?_ : Ret (disjointBound cc ty reason i b) (fun p => core p.2 = core i)) _ _ _ h
  unfold disjointBound
  refine Ret.any (fun vs => ?_)
  split_ifs <;> exact Ret.any (fun _ => Ret.any (fun _ => Ret.any (fun _ => Ret.pure' rfl)))

theorem hallLoop_core {a b : Int} {reason : List Int} : ∀ {js : List DInterval} {p : Bool × List DInterval} {W W' : World},
    hallLoop cc ty a b reason js W = .ok (p, W') → p.2.map core = js.map core
  | [], p, W, W', h => by obtain ⟨rfl, -⟩ := pure_iff.mp h; rfl
  | j :: js, p, W, W', h => by
    unfold hallLoop at h
    split_ifs at h with h1
    · obtain ⟨q, W1, h2, h3⟩ := SM.bind_ok h
      have h4 := disjointBound_core h2
      split_ifs at h3 with h5
      · obtain ⟨rfl, -⟩ := pure_iff.mp h3
        rw [List.map_cons, h4, List.map_cons]
      · obtain ⟨q', W2, h6, h7⟩ := SM.bind_ok h3
        obtain ⟨rfl, -⟩ := pure_iff.mp h7
        rw [List.map_cons, h4, hallLoop_core h6, List.map_cons]
    · obtain ⟨q', W2, h6, h7⟩ := SM.bind_ok h
      obtain ⟨rfl, -⟩ := pure_iff.mp h7
      rw [List.map_cons, hallLoop_core h6, List.map_cons]

theorem disjointHall_core {a b : Int} {pre post : List DInterval} {p : Bool × List DInterval} (h : disjointHall cc ty clit a b pre post W = .ok (p, W')) :
    p.2.map core = post.map core := by
  unfold disjointHall at h
  split_ifs at h with h1
  · obtain ⟨r, W1, h2, h3⟩ := SM.bind_ok h
    exact hallLoop_core h3
  · obtain ⟨rfl, -⟩ := pure_iff.mp h; rfl

theorem disjointScan_core {i : DInterval} : ∀ {js : List DInterval} {u : Int} {k : Option Int}, (disjointScan ty i js u k).pre.map core = js.map core
  | [], u, k => rfl
  | j :: js, u, k => by
    unfold disjointScan
    split_ifs with h1
    · dsimp only
      split_ifs with h2
      · rfl
      · rw [List.map_cons, disjointScan_core, List.map_cons]; rfl
      · rw [List.map_cons, disjointScan_core, List.map_cons]; rfl
    · dsimp only
      rw [List.map_cons, disjointScan_core, List.map_cons]

theorem disjointInsert_core {pre post : List DInterval} {i : DInterval} {p : Bool × List DInterval × List DInterval}
    (h : disjointInsert cc ty clit pre i post W = .ok (p, W')) : p.2.1.map core = (pre ++ [i]).map core ∧ p.2.2.map core = post.map core := by
  refine (?_ : Ret (disjointInsert cc ty clit pre i post) (fun p => p.2.1.map core = (pre ++ [i]).map core ∧ p.2.2.map core = post.map core)) _ _ _ h
  unfold disjointInsert
  extract_lets i1 r pre'
  have hcore : pre'.map core = (pre ++ [i]).map core := by
    show (r.pre ++ [_]).map core = _
    rw [List.map_append, show r.pre.map core = pre.map core from disjointScan_core, List.map_append]
    rfl
  split
  · exact Ret.any (fun _ => Ret.any (fun _ => Ret.pure' ⟨hcore, rfl⟩))
  · split
    · exact Ret.any (fun _ => Ret.any (fun _ => Ret.pure' ⟨hcore, rfl⟩))
    · split
      · exact Ret.pure' ⟨hcore, rfl⟩
      · exact Ret.bind' (fun _ _ _ h => disjointHall_core h) (fun q hq => Ret.pure' ⟨hcore, hq⟩)

theorem disjointGroup_core : ∀ {n : Nat} {pre post : List DInterval} {p : Bool × List DInterval} {W W' : World},
    disjointGroup cc ty clit n pre post W = .ok (p, W') → p.2.map core = (pre ++ post).map core
  | 0, pre, post, p, W, W', h => by obtain ⟨rfl, -⟩ := pure_iff.mp h; rfl
  | n + 1, pre, [], p, W, W', h => by obtain ⟨rfl, -⟩ := pure_iff.mp h; simp
  | n + 1, pre, i :: post, p, W, W', h => by
    unfold disjointGroup at h
    obtain ⟨q, W1, h2, h3⟩ := SM.bind_ok h
    obtain ⟨h4, h5⟩ := disjointInsert_core h2
    have hc : (q.2.1 ++ q.2.2).map core = (pre ++ i :: post).map core := by
      rw [List.map_append, h4, h5, ← List.map_append]; simp
    split_ifs at h3
    · obtain ⟨rfl, -⟩ := pure_iff.mp h3; exact hc
    · exact (disjointGroup_core h3).trans hc

theorem disjointGroups_flat : ∀ {is cur : List DInterval} {mn : Int}, (disjointGroups ty is cur mn).flatten.Perm (is ++ cur)
  | [], cur, mn => by simp [disjointGroups]
  | i :: is, cur, mn => by
    unfold disjointGroups
    split_ifs with hge
    · exact disjointGroups_flat.trans List.perm_middle
    · rw [List.flatten_cons]
      refine (List.Perm.append_left cur disjointGroups_flat).trans ?_
      refine List.perm_append_comm.trans ?_
      simp only [List.append_assoc, List.singleton_append, List.cons_append]
      exact List.perm_middle

theorem disjointRunGroups_core {force : Bool} : ∀ {gs : List (List DInterval)} {done : List DInterval} {p : Bool × List DInterval} {W W' : World},
    disjointRunGroups cc ty clit force gs done W = .ok (p, W') → (p.2.map core).Perm ((gs.flatten ++ done).map core)
  | [], done, p, W, W', h => by obtain ⟨rfl, -⟩ := pure_iff.mp h; simp
  | g :: gs, done, p, W, W', h => by
    have hmove : ∀ {g' : List DInterval}, g'.map core = g.map core → ((gs.flatten ++ (g' ++ done)).map core).Perm (((g :: gs).flatten ++ done).map core) := by
      intro g' hg
      rw [List.flatten_cons]
      simp only [List.map_append, hg]
      exact (List.perm_append_comm_assoc ..).trans (by rw [List.append_assoc])
    unfold disjointRunGroups at h
    split_ifs at h with h1
    · obtain ⟨q, W1, h2, h3⟩ := SM.bind_ok h
      have h4 := disjointGroup_core h2
      rw [List.nil_append] at h4
      split_ifs at h3
      · obtain ⟨rfl, -⟩ := pure_iff.mp h3
        dsimp only
        rw [List.append_assoc]
        refine List.Perm.trans ?_ (hmove h4)
        rw [List.map_append, List.map_append (l₁ := gs.flatten)]
        exact List.Perm.append_right _ ((List.Perm.flatten (List.reverse_perm gs)).map core)
      · exact (disjointRunGroups_core h3).trans (hmove h4)
    · exact (disjointRunGroups_core h).trans (hmove rfl)

theorem disjointRun_core {force : Bool} {is : List DInterval} {p : Bool × List DInterval} (h : disjointRun cc ty clit force is W = .ok (p, W')) :
    (p.2.map core).Perm (is.map core) := by
  refine (?_ : Ret (disjointRun cc ty clit force is) (fun p => (p.2.map core).Perm (is.map core))) _ _ _ h
  unfold disjointRun
  have h1 := cc.sort.perm (DInterval.hi ty) is
  split
  · rename_i heq
    rw [List.reverse_eq_nil_iff.mp heq] at h1
    exact Ret.pure' (h1.map core)
  · rename_i i rest heq
    have e : cc.sort.fn (DInterval.hi ty) is = rest.reverse ++ [i] := by rw [← List.reverse_reverse (cc.sort.fn _ _), heq, List.reverse_cons]
    rw [e] at h1
    intro W p W' h
    have h2 := disjointRunGroups_core h
    rw [List.append_nil] at h2
    exact h2.trans ((disjointGroups_flat.trans ((List.Perm.append_right [i] (List.reverse_perm rest).symm).trans h1)).map core)

theorem ivKey_core {is js : List DInterval} (h : (is.map core).Perm (js.map core)) : (is.map ivKey).Perm (js.map ivKey) := by
  have := h.map ivKey
  rw [List.map_map, List.map_map] at this
  exact this

theorem disjointLoad_key : ∀ {is is' : List DInterval} {W W' : World}, disjointLoad is W = .ok (is', W') → is'.map ivKey = is.map ivKey
  | [], is', W, W', h => by obtain ⟨rfl, -⟩ := pure_iff.mp h; rfl
  | i :: is, is', W, W', h => by
    unfold disjointLoad at h
    obtain ⟨vs, W1, h1, h2⟩ := SM.bind_ok h
    obtain ⟨js, W2, h3, h4⟩ := SM.bind_ok h2
    obtain ⟨rfl, -⟩ := pure_iff.mp h4
    rw [List.map_cons, disjointLoad_key h3, List.map_cons]; rfl

end Clingcon
