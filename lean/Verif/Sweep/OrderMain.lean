import Verif.Sweep.OrderInt

/-! # C62: the order of the segments on the sweep line is the order of their positions, up to the tolerance -/

namespace Verif.Sweep
open Verif.Curve Verif.Range Verif.Topo
set_option linter.unusedSectionVars false

variable {K P : Type} [LinearOrder K] [LinearOrder P] [AddCommGroup P] [IsOrderedAddMonoid P] {px : Nat → K → P}
variable {E : Env K} {m : P} {y : K} {Q Q' : List (IEvent K)} {pend pend' : Nat → Prop}

/-- The states in which the loop over the intersections (`intLoop`) looks at the queue. -/
inductive LoopFrom (E : Env K) (w : State K) : State K → Prop
  | start : LoopFrom E w w
  | step (v v' : State K) (ev : IEvent K) (rest : List (IEvent K)) : LoopFrom E w v → v.ints = ev :: rest → ev.y = v.y →
      handleIntersection E { v with ints := rest } ev.left ev.right = some v' → LoopFrom E w v'

/-- In the course of the sweep the event `ev` is handled in the state `u`. -/
def Handles (E : Env K) (fuel : Nat) (u : State K) (ev : IEvent K) : Prop :=
  ∃ s w, (s = State.new E ∨ Reached E fuel s) ∧ beforeInts E s = some w ∧ LoopFrom E w u ∧ u.ints.head? = some ev ∧ ev.y = u.y

theorem core_facts {M L : List Entry} {snp : List Nat} (h : MoveInv M L snp) {P : Entry → Prop} (hP : ∀ e f : Entry, f.core = e.core → P e → P f)
    (hM : ∀ e ∈ M, P e) : ∀ e ∈ L, P e := by
  intro e he
  have : e.core ∈ M.map Entry.core := h.core_perm.mem_iff.1 (List.mem_map_of_mem he)
  obtain ⟨f, h1, h2⟩ := List.mem_map.1 this
  exact hP f e h2.symm (hM f h1)

theorem intLoop_crossings (hS : E.Sound px m) {w : State K} (hon : ∀ f ∈ w.line, OnLine E y f.seg) (hnd : (lineIds w.line).Nodup)
    (hold : ∀ f ∈ w.line, ∀ o, f.oldSeg = some o → E.endY o = y) (hdead : ∀ f ∈ w.line, E.endY f.seg = y → f.willReallyExit = true)
    (hsafe : ∀ u ev, LoopFrom E w u → u.ints.head? = some ev → ev.y = u.y → SwapSafe E u ev.left ev.right) (fuel : Nat) :
    ∀ {v v' : State K}, LoopFrom E w v → intLoop E fuel v = some v' → v.y = y → MoveInv w.line v.line v.snp →
      Crossings E px m y v.ints (fun _ => False) (segsOf v.line) → Crossings E px m y v'.ints (fun _ => False) (segsOf v'.line) := by
  induction fuel with
  | zero => intro v v' _ h; simp [intLoop] at h
  | succ fuel ih =>
    intro v v' hv h hy hm hc
    simp only [intLoop] at h
    split at h
    · simp only [Option.some.injEq] at h
      subst h
      exact hc
    rename_i ev rest hi
    split at h
    · rename_i hye
      split at h
      · simp at h
      rename_i s1 hs1
      obtain ⟨g1, -, g3, -⟩ := handleIntersection_spec hs1
      have hm1 : MoveInv w.line s1.line s1.snp := g1.moveInv (M := w.line) hm
      have hyv : s1.y = y := g3.trans hy
      refine ih (.step v s1 ev rest hv hi hye hs1) h hyv hm1 ?_
      have hsf := hsafe v ev hv (by rw [hi]; rfl) hye
      have hndv : (lineIds v.line).Nodup := by
        have : (lineIds v.line).Perm (lineIds w.line) := by
          rw [← lineIds_core v.line, ← lineIds_core w.line]
          exact hm.core_perm.flatMap_right _
        exact this.nodup_iff.2 hnd
      have := handleIntersection_crossings (E := E) (m := m) (s := { v with ints := rest }) (s' := s1) (ev := ev) hS
        (by
          show ∀ f ∈ v.line, OnLine E v.y f.seg
          rw [hy]
          exact core_facts hm (P := fun f => OnLine E y f.seg) (fun e f hef h => by rw [(core_tuple hef).1]; exact h) hon)
        hndv
        (by
          show ∀ f ∈ v.line, ∀ o, f.oldSeg = some o → E.endY o = v.y
          rw [hy]
          exact core_facts hm (P := fun f => ∀ o, f.oldSeg = some o → E.endY o = y)
            (fun e f hef h o ho => h o (by rw [← (core_tuple hef).2.2.2]; exact ho)) hold)
        (by
          show ∀ f ∈ v.line, E.endY f.seg = v.y → f.willReallyExit = true
          rw [hy]
          exact core_facts hm (P := fun f => E.endY f.seg = y → f.willReallyExit = true)
            (fun e f hef h ho => by
              obtain ⟨c1, c2, c3, c4⟩ := core_tuple hef
              rw [c1] at ho
              have := h ho
              unfold Entry.willReallyExit at this ⊢
              rw [c3, c4]; exact this) hdead)
        hsf hs1
        (by
          show Crossings E px m v.y (ev :: rest) _ (segsOf v.line)
          rw [hy, ← hi]; exact hc)
      change Crossings E px m v.y _ _ _ at this
      rw [hy] at this
      exact this
    · simp only [Option.some.injEq] at h
      subst h
      exact hc

theorem handleExit_ids {s s' : State K} {seg : Nat} (h : handleExit E s seg = some s') : lineIds s'.line = lineIds s.line := by
  unfold handleExit at h
  split at h
  · simp at h
  rename_i pos hpos
  split at h
  · simp at h
  rename_i e he
  by_cases ho : e.oldSeg = some seg
  · rw [if_pos ho] at h
    simp only [Option.some.injEq] at h
    subst h
    rfl
  rw [if_neg ho] at h
  dsimp only at h
  rw [Option.map_eq_some_iff] at h
  obtain ⟨q', hq', rfl⟩ := h
  obtain ⟨l1, l2, e1, e2, e3, -⟩ := split_at he
  dsimp only
  rw [e3, e1, lineIds_append, lineIds_append, lineIds_cons, lineIds_cons]; rfl

theorem handleAll_exit_ids (l : List (K × Nat)) : ∀ {s s' : State K}, handleAll (handleExit E) y l s = some s' →
    lineIds s'.line = lineIds s.line ∧ ∀ p ∈ l, p.1 = y := by
  induction l with
  | nil =>
    intro s s' he
    simp only [handleAll, Option.some.injEq] at he
    subst he
    exact ⟨rfl, by simp⟩
  | cons p l ih =>
    intro s s' he
    simp only [handleAll] at he
    split_ifs at he with h1
    split at he
    · simp at he
    rename_i s1 hs1
    obtain ⟨g1, g2⟩ := ih he
    refine ⟨g1.trans (handleExit_ids hs1), ?_⟩
    intro q hq
    rcases List.mem_cons.1 hq with rfl | hq
    · exact h1
    · exact g2 q hq

theorem handleEnter_nextExit {s s' : State K} {seg : Nat} (h : handleEnter E s seg = some s') : s'.nextExit = s.nextExit := by
  unfold handleEnter at h
  split_ifs at h
  · simp only [Option.some.injEq] at h
    subst h
    rfl
  split at h
  · simp at h
  split at h
  · simp at h
  · unfold handleContinuation at h
    split at h
    · simp at h
    dsimp only at h
    rw [Option.map_eq_some_iff] at h
    obtain ⟨q', _, rfl⟩ := h
    rfl
  · rw [Option.map_eq_some_iff] at h
    obtain ⟨q', _, rfl⟩ := h
    rfl

theorem handleAll_counts (l : List (K × Nat)) : ∀ {s s' : State K}, handleAll (handleEnter E) y l s = some s' → s'.nextExit = s.nextExit := by
  induction l with
  | nil =>
    intro s s' he
    simp only [handleAll, Option.some.injEq] at he
    subst he
    rfl
  | cons p l ih =>
    intro s s' he
    simp only [handleAll] at he
    split_ifs at he with h1
    split at he
    · simp at he
    rename_i s1 hs1
    exact (ih he).trans (handleEnter_nextExit hs1)

theorem segsOf_new (S : List Nat) : segsOf (S.map Entry.new) = S := by
  unfold segsOf
  rw [List.map_map]
  conv_rhs => rw [← List.map_id S]
  rfl

/-- From one sweep line to the next. -/
theorem nextLine_crossings (hs : E.Sched) (hpp : E.PP) (hS : E.Sound px m) {yl : WithBot K} {y0 : K} {s s' : State K} {fuel : Nat}
    (hb : Between E yl s) (h : nextLine E fuel s = some (some s')) (hy0 : y0 ≤ s'.y)
    (hsafe : ∀ w u ev, beforeInts E s = some w → LoopFrom E w u → u.ints.head? = some ev → ev.y = u.y → SwapSafe E u ev.left ev.right)
    (hc : Crossings E px m y0 s.ints (fun _ => False) (newSegs s.line)) :
    Crossings E px m s'.y s'.ints (fun _ => False) (newSegs s'.line) := by
  obtain ⟨hlt, ⟨w, v, p1, p2, p3, p4, p5, p6, hF⟩, hb', hny⟩ := nextLine_parts hs hpp hb h
  have p1' := p1
  unfold beforeInts at p1
  rw [hny] at p1
  dsimp only at p1
  split at p1
  · simp at p1
  rename_i s1 hs1
  obtain ⟨a1, a2, a3, a4, a5, a6, a7, a8⟩ := advance_spec hb.done hs1
  split at p1
  · simp at p1
  rename_i s2 hs2
  obtain ⟨n1, n2, n3, n4⟩ := nextY_some hny
  set N := s'.y with hN
  -- at the new height
  have hnew : ∀ x ∈ newSegs s.line, OnLine E N x := by
    intro x hx
    obtain ⟨h1, h2, h3, h4⟩ := (hb.mem x).1 hx
    refine ⟨⟨h1, lt_of_le_of_ne (hs.down x h1) (by simpa [Env.isHorizontal] using h2)⟩, WithBot.coe_le_coe.1 (h3.trans hlt.le), ?_⟩
    obtain ⟨p, hp, rfl⟩ := List.mem_map.1 ((hs.exit_mem x).2 ⟨h1, h2⟩)
    have := hb.exit.head hs.exit_sorted n3 hp (by rw [hs.exit_y p hp]; exact h4)
    rwa [hs.exit_y p hp] at this
  have c0 := hc.lower hy0 fun k hk => (hnew k hk).2.2
  have hs1seg : segsOf s1.line = newSegs s.line := by rw [a2, segsOf_new]
  rw [← hs1seg, ← a5] at c0
  have hon1 : ∀ f ∈ s1.line, OnLine E N f.seg := by
    intro f hf
    refine hnew _ ?_
    rw [← hs1seg]
    exact List.mem_map_of_mem hf
  -- entrances
  have hsubE : ∀ p ∈ atHeight N E.entrances s1.nextEnter, p ∈ E.entrances := fun p hp =>
    ((List.takeWhile_prefix _).sublist.trans (List.drop_sublist _ _)).subset hp
  obtain ⟨c1, hon2, y2⟩ := handleAll_enter_crossings hS _ (s := { s1 with nextEnter := s1.nextEnter + (atHeight N E.entrances s1.nextEnter).length }) a1
    (fun p hp => by
      have h1 := hsubE p hp
      exact ⟨List.mem_map_of_mem h1, hs.enter_y p h1, hs.down p.2 (List.mem_map_of_mem h1)⟩) hs2 hon1 c0
  -- exits
  obtain ⟨i1, i2⟩ := handleAll_exit_ids _ p1
  dsimp only at i1
  have hnd2 : (lineIds s2.line).Nodup := by rw [← i1]; exact hF.nodup
  have c2 := c1.pending1 fun k hk => by
    obtain ⟨f, hf, rfl⟩ := List.mem_map.1 hk
    exact (hon2 f hf).2.2
  obtain ⟨c3, -⟩ := handleAll_exit_crossings hS _ (D := []) (s := { s2 with nextExit := s2.nextExit + (atHeight N E.exits s2.nextExit).length }) y2 p1 hon2 hnd2 c2
  have honw : ∀ f ∈ w.line, OnLine E N f.seg := by
    intro f hf
    obtain ⟨h1, h4, h2, h3⟩ := (hF.mem f.seg).1 (mem_lineIds.2 ⟨f, hf, by simp [Entry.ids]⟩)
    exact ⟨⟨h1, lt_of_le_of_ne (hs.down _ h1) (by simpa [Env.isHorizontal] using h4)⟩, h2, h3⟩
  have hx4 : s2.nextExit = s.nextExit := by
    have := handleAll_counts _ hs2
    exact this.trans a4
  rw [hx4] at p1 i2 c3
  obtain ⟨x1, x2, x3⟩ := hb.exit.next hs.exit_sorted hlt i2
  have c4 : Crossings E px m N w.ints (fun _ => False) (segsOf w.line) := by
    refine c3.mono (fun _ h => h) ?_
    rintro k hk ⟨h1, h2, _⟩
    apply h2
    obtain ⟨f, hf, rfl⟩ := List.mem_map.1 hk
    obtain ⟨h3, h4, _, _⟩ := (hF.mem f.seg).1 (mem_lineIds.2 ⟨f, hf, by simp [Entry.ids]⟩)
    obtain ⟨p, hp, hpe⟩ := List.mem_map.1 ((hs.exit_mem f.seg).2 ⟨h3, h4⟩)
    rw [List.nil_append, List.mem_map]
    exact ⟨p, (x2 p).2 ⟨hp, by rw [hs.exit_y p hp, hpe]; exact h1⟩, hpe⟩
  -- intersections
  have hold : ∀ f ∈ w.line, ∀ o, f.oldSeg = some o → E.endY o = N := by
    intro f hf o ho
    rcases hF.kinds f hf with ⟨a, b, c⟩ | ⟨a, b, c, d⟩ | ⟨o', a, b, c, d, e1, e2, e3, e4⟩ | ⟨a, b, c, d⟩
    · rw [c] at ho; simp at ho
    · rw [c] at ho; simp at ho
    · rw [c, Option.some.injEq] at ho
      rw [← ho]; exact e4
    · rw [c] at ho; simp at ho
  have hdead : ∀ f ∈ w.line, E.endY f.seg = N → f.willReallyExit = true := by
    intro f hf hd
    by_contra hw
    have hw : f.willReallyExit = false := by simpa using hw
    have : f.seg ∈ newSegs w.line := mem_newSegs.2 ⟨f, hf, hw, rfl⟩
    have := ((hF.mem_new f.seg).1 this).2
    rw [hd] at this
    exact lt_irrefl _ this
  have c5 := intLoop_crossings hS honw hF.nodup hold hdead (fun u ev h1 h2 h3 => hsafe w u ev p1' h1 h2 h3) fuel .start p3 p2 p5 c4
  -- the segments that go on
  have hcore : segsOf s'.line = segsOf v.line := by
    have := congrArg (List.map Entry.seg) hF.chg.same.core_map
    simpa [segsOf, Entry.core, Function.comp_def] using this
  rw [← hcore, p4] at c5
  have hfilter : newSegs s'.line = (segsOf s'.line).filter fun k => decide (N < E.endY k) := by
    have key : ∀ l : List Entry, (∀ f ∈ l, f ∈ s'.line) → newSegs l = (segsOf l).filter fun k => decide (N < E.endY k) := by
      intro l
      induction l with
      | nil => intro _; rfl
      | cons f l ih =>
        intro hl
        have hf := hl f (by simp)
        have ih' := ih fun g hg => hl g (List.mem_cons_of_mem _ hg)
        have hid : f.seg ∈ lineIds w.line := hF.ids_perm.mem_iff.1 (mem_lineIds.2 ⟨f, hf, by simp [Entry.ids]⟩)
        unfold newSegs at ih' ⊢
        rw [List.filterMap_cons, segsOf_cons]
        by_cases hw : f.willReallyExit = true
        · have hnl : ¬ N < E.endY f.seg := by
            have hk := hF.kind hf
            simp only [Entry.willReallyExit, Bool.and_eq_true] at hw
            rcases hk with ⟨a, b, c⟩ | ⟨a, b, c, d⟩ | ⟨o', a, b, c, d⟩ | ⟨a, b, c, d⟩
            · rw [b] at hw; simp at hw
            · rw [b] at hw; simp at hw
            · rw [c] at hw; simp at hw
            · rw [d]; exact lt_irrefl _
          rw [List.filter_cons_of_neg (by simpa using hnl), ← ih']
          have : f.newOf = none := by unfold Entry.newOf; rw [if_pos hw]
          rw [this]
        · have hmem : f.seg ∈ newSegs w.line := by
            rw [← hF.new_perm.mem_iff]
            exact mem_newSegs.2 ⟨f, hf, by simpa using hw, rfl⟩
          have hlive := ((hF.mem_new f.seg).1 hmem).2
          rw [List.filter_cons_of_pos (by simpa using hlive), ← ih']
          have : f.newOf = some f.seg := by unfold Entry.newOf; rw [if_neg hw]
          rw [this]
    exact key s'.line fun _ h => h
  rw [hfilter]
  refine Crossings.filter_dead (fun _ _ h => h) _ [] ?_ c5
  intro k hk
  obtain ⟨f, hf, rfl⟩ := List.mem_map.1 hk
  exact ((hF.mem f.seg).1 (hF.ids_perm.mem_iff.1 (mem_lineIds.2 ⟨f, hf, by simp [Entry.ids]⟩))).2.2.2

theorem Reached.crossings (hs : E.Sched) (hpp : E.PP) (hS : E.Sound px m) {fuel : Nat}
    (hsafe : ∀ u ev, Handles E fuel u ev → SwapSafe E u ev.left ev.right) {s : State K} (h : Reached E fuel s) :
    Crossings E px m s.y s.ints (fun _ => False) (newSegs s.line) := by
  induction h with
  | first s h =>
    refine nextLine_crossings hs hpp hS (y0 := s.y) (Between.init E) h le_rfl ?_ ?_
    · intro w u ev h1 h2 h3 h4
      exact hsafe u ev ⟨_, w, .inl rfl, h1, h2, h3, h4⟩
    · intro X hX a M b e
      have : X = [] := by
        have hl : newSegs (State.new E).line = [] := rfl
        rw [hl] at hX
        simpa using hX
      rw [this] at e; simp at e
  | next s s' hr h ih =>
    refine nextLine_crossings hs hpp hS (hr.spec hs hpp).1 h (C31_increasing hs hpp hr h).le ?_ ih
    intro w u ev h1 h2 h3 h4
    exact hsafe u ev ⟨_, w, .inr hr, h1, h2, h3, h4⟩

/-- `C62_order` for positions other than those of the segments. -/
theorem order_within (hs : E.Sched) (hpp : E.PP) (hS : E.Sound px m) {fuel : Nat}
    (hsafe : ∀ u ev, Handles E fuel u ev → SwapSafe E u ev.left ev.right) {s s' : State K} (h : Reached E fuel s)
    (hn : nextLine E fuel s = some (some s')) {i j : Nat} {e f : Entry} (hij : i < j) (he : s.line[i]? = some e) (hf : s.line[j]? = some f)
    (hes : (e.exit && e.oldSeg.isNone) = false) (hfs : (f.exit && f.oldSeg.isNone) = false) (t : K) (h1 : s.y < t) (h2 : t < s'.y) :
    px e.seg t ≤ px f.seg t + (m + m) := by
  by_contra hv
  have hv : Viol px (m + m) t e.seg f.seg := not_le.1 hv
  have hc := h.crossings hs hpp hS hsafe
  have hb := (h.spec hs hpp).1
  obtain ⟨_, _, hb', hny⟩ := nextLine_some hs hpp hb hn
  obtain ⟨n1, n2, n3, n4⟩ := nextY_some hny
  -- a piece of the line from one to the other
  obtain ⟨A, R, a1, a2, -, -⟩ := split_at he
  have hj : R[j - i - 1]? = some f := by
    rw [a1, List.getElem?_append_right (by omega), a2] at hf
    obtain ⟨k, hk⟩ : ∃ k, j - i = k + 1 := ⟨j - i - 1, by omega⟩
    rw [hk, List.getElem?_cons_succ] at hf
    rw [hk]; exact hf
  obtain ⟨B, C, b1, b2, -, -⟩ := split_at hj
  have hline : newSegs s.line = newSegs A ++ e.seg :: (newSegs B ++ f.seg :: newSegs C) := by
    have h3 : e.newOf = some e.seg := by unfold Entry.newOf Entry.willReallyExit; rw [if_neg (by rw [hes]; simp)]
    have h4 : f.newOf = some f.seg := by unfold Entry.newOf Entry.willReallyExit; rw [if_neg (by rw [hfs]; simp)]
    rw [a1, b1]
    simp [newSegs, List.filterMap_append, h3, h4]
  have hmem : ∀ k ∈ newSegs s.line, s'.y ≤ E.endY k := by
    intro k hk
    obtain ⟨g1, g2, g3, g4⟩ := (hb.mem k).1 hk
    obtain ⟨p, hp, rfl⟩ := List.mem_map.1 ((hs.exit_mem k).2 ⟨g1, g2⟩)
    have := hb.exit.head hs.exit_sorted n3 hp (by rw [hs.exit_y p hp]; exact g4)
    rwa [hs.exit_y p hp] at this
  have hX : (e.seg :: (newSegs B ++ [f.seg])) <:+: newSegs s.line := ⟨newSegs A, newSegs C, by rw [hline]; simp⟩
  have hme := hmem e.seg (hX.subset (by simp))
  have hmf := hmem f.seg (hX.subset (by simp))
  rcases hc _ hX _ _ _ rfl t h1 (h2.le.trans hme) (h2.le.trans hmf) hv with ⟨_, _, h3⟩ | ⟨k, h3, h4, h5⟩ | ⟨ev, h3, h4, _⟩
  · exact h3
  · exact absurd (lt_of_le_of_lt h5 h2) (not_lt.2 (hmem k (hX.subset h3)))
  · have : s'.y ≤ ev.y := by
      cases hi : s.ints with
      | nil => rw [hi] at h3; simp at h3
      | cons g gs =>
        have hso := hb.sorted
        rw [hi] at h3 hso
        exact (n4 g (by rw [hi]; rfl)).trans (hso.head_le ev h3)
    exact absurd (lt_of_le_of_lt h4 h2) (not_lt.2 this)

/-- C62: the order of the segments on the sweep line is the order of their positions. If the comparisons of segments are sound with margin
`m` and every intersection that is handled in the course of the sweep is `SwapSafe`, then between two successive sweep lines no
segment is more than `2 m` to the right of a segment that comes after it on the first of the two. -/
theorem C62_order [AddCommGroup K] [IsOrderedAddMonoid K] {m : K} (hs : E.Sched) (hpp : E.PP) (hS : E.Sound E.atY m) {fuel : Nat}
    (hsafe : ∀ u ev, Handles E fuel u ev → SwapSafe E u ev.left ev.right) {s s' : State K} (h : Reached E fuel s)
    (hn : nextLine E fuel s = some (some s')) {i j : Nat} {e f : Entry} (hij : i < j) (he : s.line[i]? = some e) (hf : s.line[j]? = some f)
    (hes : (e.exit && e.oldSeg.isNone) = false) (hfs : (f.exit && f.oldSeg.isNone) = false) (t : K) (h1 : s.y < t) (h2 : t < s'.y) :
    E.atY e.seg t ≤ E.atY f.seg t + (m + m) :=
  order_within hs hpp hS hsafe h hn hij he hf hes hfs t h1 h2

end Verif.Sweep
