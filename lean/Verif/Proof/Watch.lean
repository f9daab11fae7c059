import Verif.Proof.Track

/-! Informing constraints about changes of bounds. -/
namespace Clingcon

theorem SameF.todo (c : CState) (t : Bool) : SameF c { c with todo := t } := ⟨rfl, rfl, rfl⟩
theorem SameC.todo (c : CState) (t : Bool) : SameC c { c with todo := t } := ⟨rfl, rfl, rfl, rfl, rfl, rfl, rfl, rfl, .refl _, id⟩

/-- Books that differ in the states and the queue of constraints only. -/
structure MarkEff (b b' : Book) : Prop where
  rest : b' = { b with cs := b'.cs, todo := b'.todo }
  len : b'.cs.length = b.cs.length
  cs : ∀ (n : Nat) (c : CState), b.cs[n]? = some c → ∃ c', b'.cs[n]? = some c' ∧ SameF c c' ∧ SameC c c'
  todo : ∀ n ∈ b'.todo, n ∈ b.todo ∨ ∃ c, b.cs[n]? = some c ∧ c.inactive = 0

theorem MarkEff.refl (b : Book) : MarkEff b b := ⟨rfl, rfl, fun _ c h => ⟨c, h, SameF.refl c, SameC.refl c⟩, fun _ h => Or.inl h⟩

theorem getElem?_of_len {a b : List CState} (hl : b.length = a.length) {n : Nat} {c : CState} (h : b[n]? = some c) : ∃ c', a[n]? = some c' := by
  have : n < a.length := by rw [← hl]; exact (List.getElem?_eq_some_iff.mp h).1
  exact ⟨a[n], List.getElem?_eq_getElem this⟩

theorem MarkEff.trans {a b c : Book} (h1 : MarkEff a b) (h2 : MarkEff b c) : MarkEff a c := by
  refine ⟨?_, h2.len.trans h1.len, ?_, ?_⟩
  · rw [h2.rest, h1.rest]
  · intro n x hx
    obtain ⟨y, hy, f1, s1⟩ := h1.cs n x hx
    obtain ⟨z, hz, f2, s2⟩ := h2.cs n y hy
    exact ⟨z, hz, f1.trans f2, s1.trans s2⟩
  · intro n hn
    rcases h2.todo n hn with h | ⟨x, hx, hi⟩
    · exact h1.todo n h
    · right
      obtain ⟨y, hy⟩ := getElem?_of_len h1.len hx
      obtain ⟨z, hz, f, -⟩ := h1.cs n y hy
      rw [hx] at hz; injection hz with hz; subst hz
      exact ⟨y, hy, f.inactive ▸ hi⟩

theorem getElem?_set_cases {cs : List CState} {n m : Nat} {c x : CState} (hx : cs[m]? = some x) :
    ((m = n ∧ (cs.set n c)[m]? = some c) ∨ (m ≠ n ∧ (cs.set n c)[m]? = some x)) := by
  by_cases h : m = n
  · subst h; left; refine ⟨rfl, ?_⟩
    rw [List.getElem?_set_self (List.getElem?_eq_some_iff.mp hx).1]
  · right; refine ⟨h, ?_⟩
    rw [List.getElem?_set_ne (fun e => h e.symm)]; exact hx

theorem markTodo_eff (b : Book) (n : Nat) : MarkEff b (b.markTodo n) := by
  unfold Book.markTodo
  cases hc : b.cs[n]? with
  | none => exact MarkEff.refl b
  | some c =>
    dsimp only
    by_cases h1 : c.markedInactive = true
    · rw [if_pos h1]; exact MarkEff.refl b
    rw [if_neg h1]
    by_cases h2 : c.todo = true
    · rw [if_pos h2]; exact MarkEff.refl b
    rw [if_neg h2]
    refine ⟨rfl, by simp, ?_, ?_⟩
    · intro m x hx
      dsimp only
      rcases getElem?_set_cases (c := { c with todo := true }) (n := n) hx with ⟨rfl, he⟩ | ⟨-, he⟩
      · rw [hx] at hc; injection hc with hc; subst hc
        exact ⟨_, he, SameF.todo x true, SameC.todo x true⟩
      · exact ⟨x, he, SameF.refl x, SameC.refl x⟩
    · intro m hm
      rcases List.mem_append.mp hm with h | h
      · exact Or.inl h
      · rw [List.mem_singleton] at h; subst h
        exact Or.inr ⟨c, hc, by unfold CState.markedInactive at h1; simp at h1; omega⟩

theorem markTodos_eff (ns : List Nat) : ∀ (b : Book), MarkEff b (ns.foldl Book.markTodo b) := by
  induction ns with
  | nil => exact fun b => MarkEff.refl b
  | cons n ns ih => exact fun b => (markTodo_eff b n).trans (ih _)

/-- The effect of informing the constraints watching a variable. -/
structure WatchEff (level var : Nat) (diff : Int) (ws : List (Int × Nat)) (b : Book) (kept : List (Int × Nat)) (b' : Book)
    (added : List (Nat × Int × Nat)) : Prop where
  rest : b' = { b with cs := b'.cs, removed := b.removed ++ added, todo := b'.todo }
  len : b'.cs.length = b.cs.length
  cs : ∀ (n : Nat) (c : CState), b.cs[n]? = some c → ∃ c', b'.cs[n]? = some c' ∧ SameF c c' ∧
    (c.removableAt level = true → SameC c c' ∧ kept.filter (fun w => w.2 == n) = [] ∧
      added.filter (fun r => r.2.2 == n) = (ws.filter (fun w => w.2 == n)).map (fun w => (var, w.1, n))) ∧
    (c.removableAt level = false → kept.filter (fun w => w.2 == n) = ws.filter (fun w => w.2 == n) ∧
      added.filter (fun r => r.2.2 == n) = [] ∧
      ∀ up aL aU done, (if up then diff < 0 else 0 < diff) → Mid up c aL aU diff done →
        Mid up c' aL aU diff (((ws.filter (fun w => w.2 == n)).map (·.1)).reverse ++ done))
  var : ∀ r ∈ added, r.1 = var
  todo : ∀ n ∈ b'.todo, n ∈ b.todo ∨ ∃ c, b.cs[n]? = some c ∧ c.inactive = 0

theorem updateWatches_eff {level var : Nat} {diff : Int} : ∀ {ws : List (Int × Nat)} {b : Book} {p : List (Int × Nat) × Book},
    Book.updateWatches level var diff ws b = .ok p → ∃ added, WatchEff level var diff ws b p.1 p.2 added
  | [], b, p, h => by
    injection h with h; subst h
    refine ⟨[], by simp, rfl, fun n c hc => ⟨c, hc, SameF.refl c, fun _ => ⟨SameC.refl c, rfl, rfl⟩, fun _ => ⟨rfl, rfl, ?_⟩⟩, by simp, fun _ h => Or.inl h⟩
    intro up aL aU done _ hm; exact hm
  | (i, n) :: ws, b, p, h => by
    unfold Book.updateWatches at h
    cases hc : b.cs[n]? with
    | none => rw [hc] at h; cases h
    | some c =>
      rw [hc] at h
      dsimp only at h
      by_cases hr : c.removableAt level = true
      · rw [if_pos hr] at h
        obtain ⟨added, h1, h2, h3, h4, h5⟩ := updateWatches_eff h
        refine ⟨(var, i, n) :: added, ?_, h2, ?_, ?_, h5⟩
        · rw [h1]; simp
        · intro m x hx
          obtain ⟨x', hx', hf, g1, g2⟩ := h3 m x hx
          refine ⟨x', hx', hf, fun hrx => ?_, fun hrx => ?_⟩
          · obtain ⟨s, k, a⟩ := g1 hrx
            refine ⟨s, k, ?_⟩
            by_cases hm : n = m
            · subst hm
              rw [List.filter_cons_of_pos (by simp), List.filter_cons_of_pos (by simp), a]; rfl
            · rw [List.filter_cons_of_neg (by simpa using hm), List.filter_cons_of_neg (by simpa using hm), a]
          · obtain ⟨k, a, g⟩ := g2 hrx
            have hm : n ≠ m := by
              rintro rfl
              rw [hc] at hx; injection hx with hx; subst hx; rw [hr] at hrx; cases hrx
            rw [List.filter_cons_of_neg (by simpa using hm), List.filter_cons_of_neg (by simpa using hm)]
            exact ⟨k, a, g⟩
        · intro r hr'
          rcases List.mem_cons.mp hr' with rfl | hr'
          · rfl
          · exact h4 r hr'
      · have hr : c.removableAt level = false := by simpa using hr
        rw [if_neg (by simp [hr])] at h
        cases hu : c.update i diff with
        | error e => rw [hu] at h; cases h
        | ok r =>
        rw [hu] at h
        simp only [bind, Except.bind] at h
        generalize hbb : (if r.1 = true then ({ b with cs := b.cs.set n r.2 } : Book).markTodo n else { b with cs := b.cs.set n r.2 }) = bb at h
        have hme : MarkEff { b with cs := b.cs.set n r.2 } bb := by
          rw [← hbb]; split_ifs
          · exact markTodo_eff _ _
          · exact MarkEff.refl _
        cases hw : Book.updateWatches level var diff ws bb with
        | error e => rw [hw] at h; cases h
        | ok q =>
        rw [hw] at h
        injection h with h; subst h
        obtain ⟨added, h1, h2, h3, h4, h5⟩ := updateWatches_eff hw
        have hfl := update_flags hu
        refine ⟨added, ?_, ?_, ?_, h4, ?_⟩
        · rw [h1, hme.rest]
        · rw [h2, hme.len]; simp
        · intro m x hx
          obtain ⟨y, hy, hyf, hys⟩ : ∃ y, ({ b with cs := b.cs.set n r.2 } : Book).cs[m]? = some y ∧ SameF x y ∧
              ((m = n ∧ y = r.2 ∧ x = c) ∨ (m ≠ n ∧ y = x)) := by
            dsimp only
            rcases getElem?_set_cases (c := r.2) (n := n) hx with ⟨rfl, he⟩ | ⟨hm, he⟩
            · rw [hx] at hc; injection hc with hc; subst hc
              exact ⟨_, he, hfl, Or.inl ⟨rfl, rfl, rfl⟩⟩
            · exact ⟨x, he, SameF.refl x, Or.inr ⟨hm, rfl⟩⟩
          obtain ⟨z, hz, hzf, hzs⟩ := hme.cs m y hy
          obtain ⟨x', hx', hf, g1, g2⟩ := h3 m z hz
          have hfx := hyf.trans hzf
          refine ⟨x', hx', hfx.trans hf, fun hrx => ?_, fun hrx => ?_⟩
          · obtain ⟨s, k, a⟩ := g1 (by rw [hfx.removableAt]; exact hrx)
            have hm : n ≠ m := by
              rintro rfl
              rw [hc] at hx; injection hx with hx; subst hx; rw [hr] at hrx; cases hrx
            rw [List.filter_cons_of_neg (by simpa using hm), List.filter_cons_of_neg (by simpa using hm)]
            rcases hys with ⟨he, -, -⟩ | ⟨-, rfl⟩
            · exact absurd he.symm hm
            · exact ⟨hzs.trans s, k, a⟩
          · obtain ⟨k, a, g⟩ := g2 (by rw [hfx.removableAt]; exact hrx)
            by_cases hm : n = m
            · subst hm
              rw [List.filter_cons_of_pos (by simp), List.filter_cons_of_pos (by simp), k]
              refine ⟨rfl, a, ?_⟩
              intro up aL aU done hd hmid
              rcases hys with ⟨-, rfl, rfl⟩ | ⟨he, -⟩
              · have := g up aL aU (i :: done) hd ((mid_update hd hmid hu).same hzs)
                simpa using this
              · exact absurd rfl he
            · rw [List.filter_cons_of_neg (by simpa using hm), List.filter_cons_of_neg (by simpa using hm)]
              refine ⟨k, a, ?_⟩
              intro up aL aU done hd hmid
              rcases hys with ⟨he, -, -⟩ | ⟨-, rfl⟩
              · exact absurd he.symm hm
              · exact g up aL aU done hd (hmid.same hzs)
        · intro m hm
          have hback : ∀ {y : CState}, (b.cs.set n r.2)[m]? = some y → y.inactive = 0 → ∃ c, b.cs[m]? = some c ∧ c.inactive = 0 := by
            intro y hy hyi
            obtain ⟨x, hx⟩ := getElem?_of_len (a := b.cs) (by simp) hy
            rcases getElem?_set_cases (c := r.2) (n := n) hx with ⟨rfl, he⟩ | ⟨hm, he⟩
            · rw [hy] at he; injection he with he; subst he
              exact ⟨c, hc, hfl.inactive ▸ hyi⟩
            · rw [hy] at he; injection he with he; subst he
              exact ⟨y, hx, hyi⟩
          rcases h5 m hm with h | ⟨y, hy, hyi⟩
          · rcases hme.todo m h with h | ⟨y, hy, hyi⟩
            · exact Or.inl h
            · exact Or.inr (hback hy hyi)
          · right
            obtain ⟨z, hz⟩ := getElem?_of_len hme.len hy
            obtain ⟨w, hw, hwf, -⟩ := hme.cs m z hz
            rw [hy] at hw; injection hw with hw; subst hw
            exact hback hz (hwf.inactive ▸ hyi)

/-- The loop calling `undo` for the watches of a variable. -/
theorem undoWatches_eff {diff : Int} : ∀ {ws : List (Int × Nat)} {cs : List CState},
    (Book.undoWatches diff ws cs).length = cs.length ∧ ∀ (n : Nat) (c : CState), cs[n]? = some c → ∃ c', (Book.undoWatches diff ws cs)[n]? = some c' ∧ SameF c c' ∧
      ((ws.filter (fun w => w.2 == n)) = [] → SameC c c') ∧
      ∀ up aL aU done, (if up then diff < 0 else 0 < diff) → Mid up c aL aU (-diff) done →
        Mid up c' aL aU (-diff) (((ws.filter (fun w => w.2 == n)).map (·.1)).reverse ++ done)
  | [], cs => ⟨rfl, fun n c hc => ⟨c, hc, SameF.refl c, fun _ => SameC.refl c, fun up aL aU done _ hm => hm⟩⟩
  | (i, n) :: ws, cs => by
    obtain ⟨h1, h2⟩ := @undoWatches_eff diff ws (cs.modify n (fun c => c.undo i diff))
    refine ⟨by rw [Book.undoWatches, h1]; simp, ?_⟩
    intro m c hc
    rw [Book.undoWatches]
    by_cases hm : n = m
    · subst hm
      have : (cs.modify n (fun c => c.undo i diff))[n]? = some (c.undo i diff) := by
        rw [List.getElem?_modify]; simp [hc]
      obtain ⟨c', hc', hf, -, hmid⟩ := h2 n _ this
      refine ⟨c', hc', undo_flags.trans hf, fun he => by simp at he, ?_⟩
      intro up aL aU done hd hm
      rw [List.filter_cons_of_pos (by simp)]
      have := hmid up aL aU (i :: done) hd (mid_undo hd hm)
      simpa using this
    · have : (cs.modify n (fun c => c.undo i diff))[m]? = some c := by
        rw [List.getElem?_modify]; simp [hc, hm]
      rw [List.filter_cons_of_neg (by simpa using hm)]
      exact h2 m c this

end Clingcon
