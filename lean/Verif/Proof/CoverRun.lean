import Verif.Proof.CoverCheck

/-! Violated linear constraints are not missed: sequences of calls. -/
set_option linter.unusedSimpArgs false
set_option linter.unusedVariables false
namespace Clingcon
open Spec VarState

variable {α γ : Type} {W W' : World} {cc : CC} {n : Nat} {F F' : List VarState × Book} {f : Bool} {g : Int → Prop} {T : List Nat}
variable {L : List Lvl} {A : (Nat → Nat → Int) × (Nat → Nat → Int) × Nat}

theorem solverCheck_cov {ck r : Bool} {n : Nat} (h : solverCheck cc ck n W = .ok (r, W')) (ha : At L A (frame W)) (hm : Marks W.book.todo (frame W)) :
    Marks W'.book.todo (frame W') ∧ (r = true → ¬ g 1 → Answers cc W W' true g → Cov f g (frame W) → Cov f g (frame W')) := by
  unfold solverCheck at h
  obtain ⟨l, W1, h1, h2⟩ := SM.bind_ok h
  obtain ⟨rfl, ls, rfl⟩ := curLevel_at h1 ha
  obtain ⟨W2, W3, h3, h4⟩ := SM.bind_ok h2
  obtain ⟨rfl, rfl⟩ := get_iff.mp h3
  split at h4
  · obtain ⟨rfl, rfl⟩ := pure_iff.mp h4
    exact ⟨hm, fun _ _ _ h => h⟩
  · exact checkLoop_cov h4 ha hm

theorem propagateLits_cov : ∀ {ls : List Int} {W W' : World} {r : Bool}, propagateLits cc ls W = .ok (r, W') → Marks W.book.todo (frame W) →
    Marks W'.book.todo (frame W') ∧ (Cov f g (frame W) → Cov f g (frame W'))
  | [], W, W', r, h, hm => by
    obtain ⟨-, rfl⟩ := pure_iff.mp h
    exact ⟨hm, id⟩
  | l :: ls, W, W', r, h, hm => by
    unfold propagateLits propagateLit at h
    obtain ⟨b, W1, h1, h2⟩ := SM.bind_ok h
    obtain ⟨_, W2, h3, h4⟩ := SM.bind_ok h1
    obtain rfl := modify_iff.mp h3
    obtain ⟨m2, q2⟩ := markTodos_cov (f := f) (vs := (frame W).1) (ns := W.book.consOf l) (b := W.book) hm
    have m1 : Marks W1.book.todo (frame W1) := (keepS_updateDomain marks_todo_stab).keep _ _ _ h4 m2
    have k1 : Cov f g (frame W) → Cov f g (frame W1) := fun hc =>
      (keepS_updateDomain cov_stab).keep _ _ _ h4 ⟨q2 hc.1, hc.2.view rfl markTodo_foldl_aview⟩
    split at h2
    · obtain ⟨-, rfl⟩ := pure_iff.mp h2
      exact ⟨m1, k1⟩
    · obtain ⟨m3, k3⟩ := propagateLits_cov h2 m1
      exact ⟨m3, fun hc => k3 (k1 hc)⟩

theorem factLoop_cov (h0 : cc.level = 0) {ck : Bool} {t : List SEv → List Int} {fuel : Nat} : ∀ {n : Nat} {W W' : World} {r : Bool},
    factLoop cc t ck fuel n W = .ok (r, W') → At L A (frame W) → Marks W.book.todo (frame W) →
    Marks W'.book.todo (frame W') ∧ (r = true → ¬ g 1 → Answers cc W W' true g → Cov f g (frame W) → Cov f g (frame W'))
  | 0, W, W', r, h, _, _ => by cases h
  | n + 1, W, W', r, h, ha, hm => by
    unfold factLoop at h
    obtain ⟨b, W1, h1, h2⟩ := SM.bind_ok h
    have fr1 : frame W1 = frame W := Fr.fr (x := ccPropagate cc) (by fr_auto) _ _ _ h1
    have w1 : Grow false W W1 := Ext'.ext (x := ccPropagate cc) (by ext_auto) _ _ _ h1
    have b1 : W1.book = W.book := congrArg Prod.snd fr1
    have m1 : Marks W1.book.todo (frame W1) := by rw [fr1, b1]; exact hm
    have a1 : At L A (frame W1) := by rw [fr1]; exact ha
    have v1 : Cov f g (frame W) → Cov f g (frame W1) := fun h => by rw [fr1]; exact h
    split at h2
    · obtain ⟨rfl, rfl⟩ := pure_iff.mp h2
      exact ⟨m1, fun h => by cases h⟩
    obtain ⟨W2, W3, h3, h4⟩ := SM.bind_ok h2
    obtain ⟨rfl, rfl⟩ := get_iff.mp h3
    dsimp only at h4
    split at h4
    · obtain ⟨rfl, rfl⟩ := pure_iff.mp h4
      exact ⟨m1, fun _ _ _ h => v1 h⟩
    obtain ⟨b, W4, h5, h6⟩ := SM.bind_ok h4
    have a4 := (keep_propagate0 h0).keep _ _ _ h5 a1
    have w4 : Grow false W3 W4 := ext_solverPropagate.ext _ _ _ h5
    obtain ⟨m4, k4⟩ : Marks W4.book.todo (frame W4) ∧ (Cov f g (frame W3) → Cov f g (frame W4)) := by
      obtain ⟨_, W5, h7, h8⟩ := SM.bind_ok h5
      obtain ⟨-, -, e⟩ := pushLevel_eff h7 a1.bi (fun hlt => by omega)
      have e := e (by omega)
      subst e
      exact propagateLits_cov h8 m1
    split at h6
    · obtain ⟨rfl, rfl⟩ := pure_iff.mp h6
      exact ⟨m4, fun h => by cases h⟩
    obtain ⟨_, W5, h7, h8⟩ := SM.bind_ok h6
    have a5 : At L A (frame W5) := (keep_other (fun W => ⟨W.book.splitLast, (t W3.log).length, W.book.minimizeLevel, W.book.minimizeBound, rfl⟩)).keep _ _ _ h7 a4
    obtain rfl := modify_iff.mp h7
    have w5 : Grow false W4 { W4 with book.trailOffset := (t W3.log).length } := Grow.same rfl rfl
    obtain ⟨b, W6, h9, h10⟩ := SM.bind_ok h8
    have w6 : Grow false { W4 with book.trailOffset := (t W3.log).length } W6 := ext_solverCheck.ext _ _ _ h9
    have a6 := (solverCheck_eff h9 a5).1
    obtain ⟨m6, k6⟩ := solverCheck_cov (f := f) (g := g) h9 a5 m4
    cases b with
    | false =>
      obtain ⟨rfl, rfl⟩ := pure_iff.mp (show (Pure.pure false : SM Bool) W6 = .ok (r, W') from h10)
      exact ⟨m6, fun h => by cases h⟩
    | true =>
      have h10 : factLoop cc t ck fuel n W6 = .ok (r, W') := h10
      obtain ⟨m7, k7⟩ := factLoop_cov h0 h10 a6 m6
      have w7 : Grow false W6 W' := ext_factLoop.ext _ _ _ h10
      have w35 := (w1.trans w4).trans w5
      exact ⟨m7, fun hr g1 ans hc => k7 hr g1 (Answers.mid ans (w35.trans w6) w7 (Grow.refl false W'))
        (k6 rfl g1 (Answers.mid ans w35 w6 w7) (k4 (v1 hc)))⟩

theorem updateBounds_cov {os : List VarState} {b r : Bool} {n : Nat} (h : updateBounds cc os b n W = .ok (r, W')) (ha : At L A (frame W)) (hm : Marks W.book.todo (frame W)) :
    Marks W'.book.todo (frame W') ∧ (r = true → ¬ g 1 → Answers cc W W' true g → Cov f g (frame W) → Cov f g (frame W')) := by
  unfold Clingcon.updateBounds at h
  obtain ⟨b, W1, h1, h2⟩ := SM.bind_ok h
  have fr1 : frame W1 = frame W := fr_takeBounds.fr _ _ _ h1
  have w1 : Grow false W W1 := ext_takeBounds.ext _ _ _ h1
  have b1 : W1.book = W.book := congrArg Prod.snd fr1
  have m1 : Marks W1.book.todo (frame W1) := by rw [fr1, b1]; exact hm
  have a1 : At L A (frame W1) := by rw [fr1]; exact ha
  split at h2
  · obtain ⟨rfl, rfl⟩ := pure_iff.mp h2
    exact ⟨m1, fun h => by cases h⟩
  · obtain ⟨m2, k2⟩ := solverCheck_cov (f := f) (g := g) h2 a1 m1
    exact ⟨m2, fun hr g1 ans hc => k2 hr g1 (Answers.mid ans w1 (ext_solverCheck.ext _ _ _ h2 : Grow false W1 W') (Grow.refl false W')) (by rw [fr1]; exact hc)⟩

/-! ### Bounds when levels have been opened -/

/-- The bounds do not show that the constraint is violated. -/
def lowC (f : Bool) (mb : Option Int) (lo up : Nat → Int) : Constr → Prop
  | .sum _ r es => lowSum lo up es ≤ r
  | .minimize _ es => f = true → ∀ v, mb = some v → lowSum lo up es ≤ v ∨ upSum lo up es ≤ v
  | _ => True

/-- No constraint was missed when the level was opened. -/
def Opened (F : List VarState × Book) (l : Lvl) (g : Int → Prop) : Prop :=
  ∀ (n : Nat) c, F.2.cs[n]? = some c → c.alive = true →
    (n ∉ F.2.inactive.take l.inactiveOff → lowC (decide (F.2.minimizeLevel < l.level)) F.2.minimizeBound (alF F l.level) (auF F l.level) c.con) ∧
    (n ∈ F.2.inactive.take l.inactiveOff → asideC g (alF F l.level) (auF F l.level) c.con)

/-- The same for all open levels. -/
def Snaps (F : List VarState × Book) : List Lvl → List (Int → Prop) → Prop
  | [_], [_] => True
  | l :: l' :: ls, _ :: g :: gs => Opened F l g ∧ Snaps F (l' :: ls) (g :: gs)
  | _, _ => False

theorem Snaps.head {ls : List Lvl} {g g' : Int → Prop} {gs : List (Int → Prop)} (h : Snaps F ls (g :: gs)) : Snaps F ls (g' :: gs) := by
  match ls, gs, h with
  | [_], [], _ => trivial
  | _ :: _ :: _, _ :: _, h => exact h

theorem Opened.congr {l : Lvl} (hc : F'.2.cs.map acon = F.2.cs.map acon) (ht : F'.2.inactive.take l.inactiveOff = F.2.inactive.take l.inactiveOff)
    (hl : alF F' l.level = alF F l.level) (hu : auF F' l.level = auF F l.level)
    (hm : ∀ v, F'.2.minimizeBound = some v → F'.2.minimizeLevel < l.level → F.2.minimizeBound = some v ∧ F.2.minimizeLevel < l.level) (h : Opened F l g) : Opened F' l g := by
  intro n c' h1 h2
  obtain ⟨c, a1, a2, a3⟩ := acon_get hc h1
  obtain ⟨b1, b2⟩ := h n c a1 (a2 ▸ h2)
  rw [ht, hl, hu, a3]
  refine ⟨fun hn => ?_, b2⟩
  have := b1 hn
  cases hcon : c.con with
  | sum l r es => rw [hcon] at this; exact this
  | minimize a es =>
    rw [hcon] at this
    intro hf v hv
    obtain ⟨x1, x2⟩ := hm v hv (by simpa using hf)
    exact this (by simpa using x2) v x1
  | distinct l es => trivial
  | disjoint l es => trivial
  | nonlinear l ca x y cb z r => trivial

theorem Snaps.congr : ∀ {ls : List Lvl} {gs : List (Int → Prop)}, (ls.map (·.level)).Pairwise (· > ·) →
    (∀ l ∈ ls, 0 < l.level → ∀ g, Opened F l g → Opened F' l g) → Snaps F ls gs → Snaps F' ls gs
  | [_], [_], _, _, _ => trivial
  | l :: l' :: ls, _ :: g :: gs, hd, ho, h => by
    rw [List.map_cons, List.pairwise_cons] at hd
    have hl : l.level > l'.level := hd.1 _ (by simp)
    exact ⟨ho l (List.mem_cons_self ..) (by omega) g h.1, Snaps.congr hd.2 (fun x hx => ho x (List.mem_cons_of_mem _ hx)) h.2⟩
  | [], [], _, _, h => h.elim
  | [], _ :: _, _, _, h => h.elim
  | [_], [], _, _, h => h.elim
  | [_], _ :: _ :: _, _, _, h => h.elim
  | _ :: _ :: _, [], _, _, h => h.elim
  | _ :: _ :: _, [_], _, _, h => h.elim

theorem cutOK_mem {off : Lvl → Nat} : ∀ {ls : List Lvl} {u : List α}, CutOK off ls u → ∀ l ∈ ls, off l ≤ u.length
  | [], _, _, l, hl => by cases hl
  | x :: ls, u, h, l, hl => by
    rcases List.mem_cons.mp hl with rfl | hl
    · exact h.1
    · have := cutOK_mem h.2 l hl
      rw [List.length_take] at this
      omega

theorem take_prefix {I J : List α} (h : I <+: J) {k : Nat} (hk : k ≤ I.length) : J.take k = I.take k := by
  obtain ⟨x, rfl⟩ := h
  rw [List.take_append_of_le_length hk]

theorem Snaps.steady {gs : List (Int → Prop)} (hb : BI F) (hr : ∀ l ∈ F.2.levels.head?, ∀ k, 0 < k → k ≤ l.level → alF F' k = alF F k ∧ auF F' k = auF F k)
    (hc : F'.2.cs.map acon = F.2.cs.map acon) (hi : F.2.inactive <+: F'.2.inactive)
    (hm : ∀ v, ∀ l ∈ F.2.levels, F'.2.minimizeBound = some v → F'.2.minimizeLevel < l.level → F.2.minimizeBound = some v ∧ F.2.minimizeLevel < l.level)
    (h : Snaps F F.2.levels gs) : Snaps F' F.2.levels gs := by
  refine h.congr hb.dec (fun l hl h0 g ho => ?_)
  obtain ⟨x, hx, hle⟩ : ∃ x ∈ F.2.levels.head?, l.level ≤ x.level := by
    have hd := hb.dec
    cases hh : F.2.levels with
    | nil => rw [hh] at hl; cases hl
    | cons y ys =>
      rw [hh] at hl hd
      refine ⟨y, rfl, ?_⟩
      rw [List.map_cons, List.pairwise_cons] at hd
      rcases List.mem_cons.mp hl with rfl | hl
      · exact Nat.le_refl _
      · exact Nat.le_of_lt (hd.1 _ (List.mem_map_of_mem hl))
  obtain ⟨e1, e2⟩ := hr x hx _ h0 hle
  exact ho.congr hc (take_prefix hi (cutOK_mem hb.cutI l hl)) e1 e2 (fun v => hm v l hl)

/-! ### Single calls -/

theorem Out.learn {X : Nat → Prop} {g' : Int → Prop} (hg : ∀ l, g l → g' l) (h : Out g X F) : Out g' X F :=
  fun n c h1 h2 h3 h4 => (h n c h1 h2 h3 h4).learn hg

theorem Cov.learn {g' : Int → Prop} (hg : ∀ l, g l → g' l) (h : Cov f g F) : Cov f g' F := ⟨h.1, h.2.learn hg⟩

/-- The invariant of states during search. -/
structure CI (W : World) (G : Ghost) : Prop where
  wi : WI W
  marks : Marks W.book.todo (frame W)
  snaps : Snaps (frame W) W.book.levels G.known
  sane : ∀ g ∈ G.known, ¬ g 1
  cov : G.ok = true → ∀ g ∈ G.known.head?, Cov G.fresh g (frame W)

theorem WI.ne (h : WI W) : W.book.levels ≠ [] := by
  intro e
  have := h.base
  rw [e] at this; cases this

/-- Calls that neither open nor close a level. -/
theorem CI.stay {G : Ghost} {op : Op} {r : Bool} {gs : List (Int → Prop)} (h : CI W G) (wi' : WI W') (hlev : W'.book.levels = W.book.levels)
    (hl : Learns op W W' r G.known gs) (hm : Marks W'.book.todo (frame W')) (hs : Snaps (frame W) W.book.levels G.known → Snaps (frame W') W.book.levels G.known)
    (hok : G.ok = true)
    (hc : r = true → ∀ g g', G.known.head? = some g → (∀ l, g l → g' l) → ¬ g' 1 → (∀ cc, envOf op = some cc → Answers cc W W' true g') → Cov G.fresh g (frame W) →
      Cov (freshAfter W G.fresh op) g' (frame W')) : CI W' ⟨r, freshAfter W G.fresh op, gs⟩ := by
  have h0 := h.snaps
  have h1 := h.sane
  have h2 := h.cov hok
  generalize hk : G.known = k at hl hs hc h0 h1 h2
  cases hl with
  | @stay g g' gs e a b c =>
    refine ⟨wi', hm, ?_, ?_, fun hr x hx => ?_⟩
    · show Snaps (frame W') W'.book.levels (g' :: gs)
      rw [hlev]
      exact (hs h0).head
    · intro x hx
      rcases List.mem_cons.mp hx with rfl | hx
      · exact b
      · exact h1 x (List.mem_cons_of_mem _ hx)
    · injection hx with hx
      subst hx
      have hr : r = true := hr
      subst hr
      exact hc rfl g g' rfl a b c (h2 g rfl)
  | deeper e => rw [hlev] at e; omega
  | back e => rw [hlev] at e; omega

/-- Calls that keep the frame. -/
theorem CI.fr {G : Ghost} {op : Op} {r : Bool} {gs : List (Int → Prop)} (h : CI W G) (hf : frame W' = frame W) (hl : Learns op W W' r G.known gs) (hok : G.ok = true)
    (hfr : freshAfter W G.fresh op = G.fresh) : CI W' ⟨r, freshAfter W G.fresh op, gs⟩ := by
  have hb : W'.book = W.book := congrArg Prod.snd hf
  refine h.stay ⟨by rw [hf]; exact h.wi.bi, by rw [hb]; exact h.wi.base⟩ (by rw [hb]) hl (by rw [hf, hb]; exact h.marks) (fun h => by rw [hf]; exact h) hok ?_
  intro _ g g' _ hg _ _ hc
  rw [hf, hfr]
  exact hc.learn hg

theorem levels_of_same {op : Op} {r : Bool} (hp : op.pre W) (h : op.exec W = .ok (r, W')) (hi : WI W) (hn : W'.book.levels.length = W.book.levels.length) :
    W'.book.levels = W.book.levels ∧ ∀ l ∈ W.book.levels.head?, ∀ k, 0 < k → k ≤ l.level → alF (frame W') k = alF (frame W) k ∧ auF (frame W') k = auF (frame W) k := by
  obtain ⟨-, hr⟩ := step_eff hp h hi
  cases hr with
  | same e s => exact ⟨e, fun l hl => (s l hl).2⟩
  | push l e =>
    have e : W'.book.levels = l :: W.book.levels := e
    rw [e] at hn; simp at hn
  | pop l e =>
    have e : W.book.levels = l :: W'.book.levels := e
    rw [e] at hn; simp at hn

/-- Calls that keep constraints, inactive constraints and the bound of the objective. -/
theorem CI.steady {G : Ghost} {op : Op} {r : Bool} {gs : List (Int → Prop)} (h : CI W G) (hp : op.pre W) (hx : op.exec W = .ok (r, W')) (hn : W'.book.levels.length = W.book.levels.length)
    (hs : Steady (W.book.cs.map acon) W.book.inactive (W.book.minimizeBound, W.book.minimizeLevel) (frame W'))
    (hl : Learns op W W' r G.known gs) (hm : Marks W'.book.todo (frame W')) (hok : G.ok = true)
    (hc : r = true → ∀ g g', G.known.head? = some g → (∀ l, g l → g' l) → ¬ g' 1 → (∀ cc, envOf op = some cc → Answers cc W W' true g') → Cov G.fresh g (frame W) →
      Cov (freshAfter W G.fresh op) g' (frame W')) : CI W' ⟨r, freshAfter W G.fresh op, gs⟩ := by
  obtain ⟨e1, e2⟩ := levels_of_same hp hx h.wi hn
  refine h.stay (step_eff hp hx h.wi).1 e1 hl hm (fun hsn => ?_) hok hc
  refine Snaps.steady (F := frame W) h.wi.bi e2 hs.1 hs.2.1 ?_ hsn
  intro v l _ hv hlt
  obtain ⟨x1, x2⟩ := Prod.mk.inj hs.2.2
  rw [x1] at hv
  rw [x2] at hlt
  exact ⟨hv, hlt⟩

end Clingcon
