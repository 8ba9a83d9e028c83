import Verif.Sweep.Move

/-! Handling the intersections at one height. -/

namespace Verif.Sweep
open Verif.Curve Verif.Range Verif.Topo
set_option linter.unusedSectionVars false

variable {K : Type} [LinearOrder K]

/-- The line `P ++ X ++ Q` is reordered by moving the entries at the places in `moves` behind the others of `X`. -/
structure Moved (line line' : List Entry) (l r : Nat) (moves : List Nat) : Prop where
  lt : l < r
  len : r < line.length
  head : l ∈ moves
  between : ∀ j ∈ moves, l ≤ j ∧ j < r
  line_eq : line' = (markOld line l (r + 1)).take l ++
    selIdx (fun i => !decide (i ∈ moves)) l (((markOld line l (r + 1)).drop l).take (r + 1 - l)) ++
    selIdx (fun i => decide (i ∈ moves)) l (((markOld line l (r + 1)).drop l).take (r + 1 - l)) ++
    (markOld line l (r + 1)).drop (r + 1)

theorem selIdx_length_add {α : Type} (p : Nat → Bool) (k : Nat) (a : List α) :
    (selIdx (fun i => !p i) k a).length + (selIdx p k a).length = a.length := by
  have := (selIdx_perm p k a).length_eq
  simpa using this

/-- Removing and inserting, put together. -/
theorem reorder {E : Env K} {y : K} {line1 line2 : List Entry} {l r : Nat} {moves : List Nat} {q : List (IEvent K)}
    {removed : List Entry} {q2 : List (IEvent K)} {res : List Entry × List (IEvent K)}
    (hlr : l < r) (hr : r < line1.length) (hs : moves.Pairwise (· < ·)) (hb : ∀ j ∈ moves, l ≤ j ∧ j < r)
    (h1 : removeScan E y moves.reverse line1 q = some (removed, line2, q2))
    (h2 : insertAll E y (r + 1 - moves.length) removed line2 q2 = some res) :
    res.1 = line1.take l ++ selIdx (fun i => !decide (i ∈ moves)) l ((line1.drop l).take (r + 1 - l)) ++
      selIdx (fun i => decide (i ∈ moves)) l ((line1.drop l).take (r + 1 - l)) ++ line1.drop (r + 1) ∧
    ∃ q3, Grows E y line1 q q3 ∧ Grows E y res.1 q3 res.2 := by
  obtain ⟨g1, g2, g3, -⟩ := removeScan_spec moves.reverse (List.pairwise_reverse.2 hs) h1
  dsimp only at g1 g2 g3
  rw [erase_sel _ (List.pairwise_reverse.2 hs)] at g2
  have e0 : line1 = line1.take l ++ (line1.drop l).take (r + 1 - l) ++ line1.drop (r + 1) := by
    have : line1.drop (r + 1) = (line1.drop l).drop (r + 1 - l) := by rw [List.drop_drop]; congr 1; omega
    rw [this, List.append_assoc, List.take_append_drop, List.take_append_drop]
  set P := line1.take l with hP
  set X := (line1.drop l).take (r + 1 - l) with hX
  set Q := line1.drop (r + 1) with hQ
  have lP : P.length = l := by simp [hP]; omega
  have lX : X.length = r + 1 - l := by simp [hX]; omega
  have e2 : line2 = P ++ selIdx (fun i => !decide (i ∈ moves)) l X ++ Q := by
    rw [g2, e0, selIdx_append, selIdx_append]
    congr 1
    · congr 1
      · refine selIdx_true ?_
        intro i _ h4
        simp only [decide_eq_true_eq, List.mem_reverse]
        intro h5
        have := hb i h5
        omega
      · rw [lP, Nat.zero_add]
        refine selIdx_congr ?_
        intro i _ _
        simp
    · refine selIdx_true ?_
      intro i h3 _
      simp only [decide_eq_true_eq, List.mem_reverse]
      intro h5
      have := hb i h5
      simp only [List.length_append, lP, lX] at h3
      omega
  have em : moves.filterMap (fun j => line1[j]?) = selIdx (fun i => decide (i ∈ moves)) l X := by
    rw [← pick_sel moves hs l X fun j hj => (hb j hj).1]
    refine List.filterMap_congr ?_
    intro j hj
    have := hb j hj
    rw [e0, List.append_assoc, List.getElem?_append_right (by omega), List.getElem?_append_left (by omega), lP]
  have hm : moves.length = (selIdx (fun i => decide (i ∈ moves)) l X).length := by
    rw [← em]
    have : (moves.map some).length = moves.length := by simp
    rw [List.length_filterMap_eq_countP]
    symm
    rw [List.countP_eq_length]
    intro j hj
    have := hb j hj
    rw [List.getElem?_eq_getElem (by omega)]
    rfl
  have hsum := selIdx_length_add (fun i => decide (i ∈ moves)) l X
  have hpos : r + 1 - moves.length = (P ++ selIdx (fun i => !decide (i ∈ moves)) l X).length := by
    rw [List.length_append, lP, hm]
    omega
  have hle : r + 1 - moves.length ≤ line2.length := by rw [hpos, e2, List.length_append (bs := Q)]; omega
  obtain ⟨k1, k2⟩ := insertAll_spec removed hle h2
  refine ⟨?_, q2, g3, k2⟩
  rw [k1, hpos, e2, List.take_left, List.drop_left, g1, ← List.filterMap_reverse, List.reverse_reverse, em]

theorem collect_sorted {l r : Nat} {sub : List Nat} (hs : sub.Sublist (List.range' (l + 1) (r - l - 1))) :
    (l :: sub).Pairwise (· < ·) ∧ ∀ j ∈ l :: sub, l ≤ j ∧ (l < r → j < r) := by
  constructor
  · rw [List.pairwise_cons]
    refine ⟨?_, (range'_lt _ _).sublist hs⟩
    intro j hj
    have := List.mem_range'_1.1 (hs.subset hj)
    omega
  · intro j hj
    rcases List.mem_cons.1 hj with rfl | hj
    · exact ⟨le_refl _, fun h => h⟩
    · have := List.mem_range'_1.1 (hs.subset hj)
      exact ⟨by omega, fun _ => by omega⟩

/-- What handling one intersection does to the line. -/
inductive Handled (E : Env K) (s s' : State K) (left right : Nat) : Prop
  /-- the segments change places -/
  | swap (l r : Nat) (sub : List Nat) : position s.line left = some l → position s.line right = some r →
      collectMoves E s.y s.line left right (List.range' (l + 1) (r - l - 1)) [l] = some (.inr (l :: sub)) →
      Moved s.line s'.line l r (l :: sub) → s'.snp = s.snp ++ List.range' l (r + 1 - l) → Handled E s s' left right
  /-- the event is delayed -/
  | delay (y' : K) : s.y < y' → (⟨y', left, right⟩ : IEvent K) ∈ s'.ints → s'.line = s.line → s'.snp = s.snp → Handled E s s' left right
  /-- the segments are in the right order already -/
  | touch (l r : Nat) : r ≤ l → position s.line left = some l → position s.line right = some r → s'.line = s.line →
      s'.snp = s.snp ++ List.range' r (l + 1 - r) → Handled E s s' left right

theorem handleIntersection_spec {E : Env K} {s s' : State K} {left right : Nat} (h : handleIntersection E s left right = some s') :
    Handled E s s' left right ∧ (QInv s.y s.ints → QInv s.y s'.ints) ∧ s'.y = s.y ∧ s'.nextEnter = s.nextEnter ∧
      s'.nextExit = s.nextExit ∧ s'.chg = s.chg ∧ s'.horiz = s.horiz := by
  unfold handleIntersection at h
  split at h
  case h_2 => simp at h
  rename_i l r hl hr
  obtain ⟨el, el1, -⟩ := position_some hl
  obtain ⟨er, er1, -⟩ := position_some hr
  have hltl := (List.getElem?_eq_some_iff.1 el1).1
  have hltr := (List.getElem?_eq_some_iff.1 er1).1
  by_cases hlr : l < r
  · rw [if_pos hlr] at h
    split at h
    · simp at h
    · rename_i y' hy'
      simp only [Option.some.injEq] at h
      subst h
      refine ⟨.delay y' (collectMoves_delay _ hy') ((mem_pushInt _ _ _).2 (.inl rfl)) rfl rfl, ?_, rfl, rfl, rfl, rfl, rfl⟩
      rintro ⟨q1, q2⟩
      refine ⟨pushInt_sorted _ _ q1, fun e he => ?_⟩
      rcases (mem_pushInt _ _ e).1 he with rfl | he
      · exact (collectMoves_delay _ hy').le
      · exact q2 e he
    · rename_i moves hm
      split at h
      · simp at h
      rename_i removed line2 q2 hrem
      rw [Option.map_eq_some_iff] at h
      obtain ⟨res, hres, rfl⟩ := h
      obtain ⟨sub, m1, m2, -⟩ := collectMoves_spec _ hm
      have hmv : moves = l :: sub := by simpa using m1
      subst hmv
      obtain ⟨s1, s2⟩ := collect_sorted m2
      have hb : ∀ j ∈ l :: sub, l ≤ j ∧ j < r := fun j hj => ⟨(s2 j hj).1, (s2 j hj).2 hlr⟩
      obtain ⟨k1, q3, k2, k3⟩ := reorder hlr (by rw [markOld_length]; exact hltr) s1 hb hrem hres
      refine ⟨.swap l r sub hl hr hm ⟨hlr, hltr, by simp, hb, k1⟩ rfl, ?_, rfl, rfl, rfl, rfl, rfl⟩
      intro q
      exact k3.qinv (k2.qinv q)
  · rw [if_neg hlr, Option.map_eq_some_iff] at h
    obtain ⟨q', hq', rfl⟩ := h
    rw [Option.bind_eq_some_iff] at hq'
    obtain ⟨q1, h1, h2⟩ := hq'
    exact ⟨.touch l r (by omega) hl hr rfl rfl, fun q => (scanLeft_grows h2).qinv ((scanRight_grows h1).qinv q), rfl, rfl, rfl, rfl, rfl⟩

theorem Handled.moveInv {E : Env K} {M : List Entry} {s s' : State K} {left right : Nat} (hh : Handled E s s' left right)
    (h : MoveInv M s.line s.snp) : MoveInv M s'.line s'.snp := by
  cases hh with
  | delay y' _ _ h1 h2 => rw [h1, h2]; exact h
  | touch l r hle hl hr h1 h2 =>
    rw [h1, h2]
    obtain ⟨el, el1, -⟩ := position_some hl
    have hltl := (List.getElem?_eq_some_iff.1 el1).1
    refine h.more (fun i hi => by simp [hi]) ?_
    intro i hi
    rcases List.mem_append.1 hi with hi | hi
    · exact h.lt i hi
    · rw [List.mem_range'_1] at hi; omega
  | swap l r sub hl hr hm hmv hsnp =>
    have h0 : MoveInv M s.line (s.snp ++ List.range' l (r + 1 - l)) := by
      refine h.more (fun i hi => by simp [hi]) ?_
      intro i hi
      rcases List.mem_append.1 hi with hi | hi
      · exact h.lt i hi
      · rw [List.mem_range'_1] at hi
        have := hmv.len
        omega
    have h1 := h0.mark l (r + 1) fun i h1 h2 _ => by
      rw [List.mem_append, List.mem_range'_1]; right; omega
    set line1 := markOld s.line l (r + 1) with hline1
    have hlen : line1.length = s.line.length := markOld_length ..
    have hll := hmv.lt
    have hrl := hmv.len
    have e0 : line1 = line1.take l ++ (line1.drop l).take (r + 1 - l) ++ line1.drop (r + 1) := by
      have : line1.drop (r + 1) = (line1.drop l).drop (r + 1 - l) := by rw [List.drop_drop]; congr 1; omega
      rw [this, List.append_assoc, List.take_append_drop, List.take_append_drop]
    have hline' := hmv.line_eq
    rw [← hline1] at hline'
    rw [e0] at h1
    have hmark : ∀ e ∈ (line1.drop l).take (r + 1 - l), e.oldIdx.isSome := by
      intro e he
      obtain ⟨i, hi, hie⟩ := List.mem_iff_getElem.1 he
      have hi' : i < r + 1 - l := by simp at hi; omega
      have : line1[l + i]? = some e := by
        rw [← hie]
        simp only [List.getElem_take, List.getElem_drop]
        rw [List.getElem?_eq_getElem]
      rw [hline1, markOld_get, Option.map_eq_some_iff] at this
      obtain ⟨f, _, h4⟩ := this
      rw [if_pos (by omega)] at h4
      rw [← h4, (setOld_spec f _).1]
      rfl
    have h2 := h1.block (selIdx_perm (fun i => decide (i ∈ l :: sub)) l _) hmark
    rw [hline', hsnp]
    rw [List.append_assoc (line1.take l)]
    refine h2.more ?_ ?_
    · intro i hi
      rw [List.mem_append] at hi
      rcases hi with hi | hi
      · exact hi
      · have hl1 : (line1.take l).length = l := by simp; omega
        have hl2 : ((line1.drop l).take (r + 1 - l)).length = r + 1 - l := by simp; omega
        rw [hl1, hl2] at hi
        exact List.mem_append.2 (.inr hi)
    · intro i hi
      exact h2.lt i (List.mem_append.2 (.inl hi))

/-- The loop over the intersections at one height. -/
theorem intLoop_spec {E : Env K} {M : List Entry} (fuel : Nat) : ∀ {s s' : State K}, intLoop E fuel s = some s' →
    MoveInv M s.line s.snp → QInv s.y s.ints →
    MoveInv M s'.line s'.snp ∧ QInv s.y s'.ints ∧ (∀ e ∈ s'.ints, s.y < e.y) ∧ s'.y = s.y ∧ s'.nextEnter = s.nextEnter ∧
      s'.nextExit = s.nextExit ∧ s'.chg = s.chg ∧ s'.horiz = s.horiz := by
  induction fuel with
  | zero => intro s s' h; simp [intLoop] at h
  | succ fuel ih =>
    intro s s' h hm hq
    simp only [intLoop] at h
    split at h
    · rename_i hi
      simp only [Option.some.injEq] at h
      subst h
      exact ⟨hm, hq, by simp [hi], rfl, rfl, rfl, rfl, rfl⟩
    · rename_i e rest hi
      split at h
      · rename_i hy
        split at h
        · simp at h
        rename_i s1 hs1
        obtain ⟨g1, g2, g3, g4, g5, g6, g7⟩ := handleIntersection_spec hs1
        have hq0 : QInv s.y rest := by
          rw [hi] at hq
          exact ⟨(List.pairwise_cons.1 hq.1).2, fun x hx => hq.2 x (by simp [hx])⟩
        have hm1 : MoveInv M s1.line s1.snp := by
          have := g1.moveInv (M := M)
          exact this hm
        have hq1 := g2 hq0
        dsimp only at g3 g4 g5 g6 g7 hq1
        rw [← g3] at hq1
        obtain ⟨k1, k2, k3, k4, k5, k6, k7, k8⟩ := ih h hm1 hq1
        rw [g3] at k2 k3
        exact ⟨k1, k2, k3, k4.trans g3, k5.trans g4, k6.trans g5, k7.trans g6, k8.trans g7⟩
      · rename_i hy
        simp only [Option.some.injEq] at h
        subst h
        refine ⟨hm, hq, ?_, rfl, rfl, rfl, rfl, rfl⟩
        intro x hx
        have h1 : s.y < e.y := lt_of_le_of_ne (hq.2 e (by simp [hi])) (Ne.symm hy)
        rw [hi] at hx
        have hs := hq.1
        rw [hi] at hs
        exact lt_of_lt_of_le h1 (hs.head_le x hx)

theorem ExitInv.moveInv {E : Env K} {y : K} {S0 I done : List Nat} {s : State K} (h : ExitInv E y S0 I done s) :
    MoveInv s.line s.line s.snp := by
  refine ⟨fun c _ => List.Perm.refl _, rfl, ?_, ?_, ?_⟩
  · intro i e he ho
    exact absurd (h.blank e (List.mem_of_getElem? he)).2 ho
  · intro i e he ho
    exact (h.snp i).2 ⟨e, he, ho⟩
  · intro i hi
    obtain ⟨e, he, _⟩ := (h.snp i).1 hi
    exact (List.getElem?_eq_some_iff.1 he).1

end Verif.Sweep
