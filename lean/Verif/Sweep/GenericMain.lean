import Verif.Sweep.GenericInt
import Verif.Sweep.TotalPlanar
import Mathlib.Order.Basic

/-!
# Segments in general position: the line is in order, and the sweep returns

The order of the line is right at every height, and on one line only finitely many intersections are handled: no two segments change places
twice.
-/

namespace Verif.Sweep
open Verif.Curve Verif.Range Verif.Topo Verif.Scan
set_option linter.unusedSectionVars false

section
variable {K : Type} [LinearOrder K] {E : Env K} {y : K}

/-- What is known about the state between two lines. -/
structure RestG (E : Env K) (yl : WithBot K) (s : State K) : Prop where
  evs : ∀ ev ∈ s.ints, EvDue E ev
  cross : ∀ y0 : K, yl = y0 → Crossings E E.rank 0 y0 s.ints (fun _ => False) (newSegs s.line)
  tame : (newSegs s.line).Pairwise fun a b => E.Tame a b → ¬ E.Lt b a

theorem RestG.init (E : Env K) : RestG E ⊥ (State.new E) := by
  refine ⟨?_, ?_, List.Pairwise.nil⟩
  · intro ev hev; simp [State.new] at hev
  · intro y0 h; simp at h

theorem RestG.tameAt {yl : WithBot K} {s : State K} (hr : RestG E yl s) {a b : Nat} (hab : [a, b].Sublist (newSegs s.line)) (ht : E.Tame a b) : ¬ E.Lt b a := by
  have := hr.tame.sublist hab
  simp only [List.pairwise_cons, List.mem_singleton, forall_eq] at this
  exact this.1 ht

/-- Between two lines the segments do not change their order. -/
theorem RestG.between [DenselyOrdered K] (hG : E.Generic) (hs : E.Sched) {yl : WithBot K} {s : State K} (hb : Between E yl s) (hr : RestG E yl s) {N : K}
    (hy : nextY E s = some N) {a b : Nat} (hab : [a, b].Sublist (newSegs s.line)) {t : K} (h1 : yl < t) (h2 : t < N) : ¬ E.Sure t b a := by
  intro hsure
  have hw : ¬ E.Tame a b := fun ht => hr.tameAt hab ht (lt_of_atY hsure.1 hsure.2.1 (hG.comparable.sure_lt hsure))
  obtain ⟨hlt, hon⟩ := hb.next hs hy
  obtain ⟨n1, n2, n3, n4⟩ := nextY_some hy
  have ha : a ∈ newSegs s.line := hab.subset (by simp)
  have hbm : b ∈ newSegs s.line := hab.subset (by simp)
  cases hyl : yl with
  | bot =>
    obtain ⟨_, _, h, _⟩ := (hb.mem a).1 ha
    rw [hyl] at h
    simp at h
  | coe y0 =>
    have hc := hr.cross y0 hyl
    rw [hyl, WithBot.coe_lt_coe] at h1
    -- a piece of the line from `a` to `b`
    obtain ⟨X, M, Y, hl⟩ : ∃ X M Y, newSegs s.line = X ++ a :: (M ++ b :: Y) := by
      obtain ⟨r1, r2, e1, e2, e3⟩ := List.cons_sublist_iff.1 hab
      obtain ⟨X, M1, f1⟩ := List.append_of_mem e2
      obtain ⟨M2, Y, f2⟩ := List.append_of_mem (List.singleton_sublist.1 e3)
      exact ⟨X, M1 ++ M2, Y, by rw [e1, f1, f2]; simp⟩
    have hX : (a :: (M ++ [b])) <:+: newSegs s.line := ⟨X, Y, by rw [hl]; simp⟩
    have hv : Viol E.rank (0 + 0) t a b := by
      unfold Viol
      rw [add_zero, add_zero]
      exact rank_lt hG.comparable hsure.2.1 hsure.1 (hG.not_may hw hsure)
    rcases hc _ hX _ _ _ rfl t h1 hsure.2.1.2.2 hsure.1.2.2 hv with ⟨_, _, h3⟩ | ⟨k, h3, h4, h5⟩ | ⟨ev, h3, h4, _⟩
    · exact h3
    · exact absurd (lt_of_le_of_lt h5 h2) (not_lt.2 (hon k (hX.subset h3)).2.2)
    · have : N ≤ ev.y := by
        cases hi : s.ints with
        | nil => rw [hi] at h3; simp at h3
        | cons g gs =>
          have hso := hb.sorted
          rw [hi] at h3 hso
          exact (n4 g (by rw [hi]; rfl)).trans (hso.head_le ev h3)
      exact absurd (lt_of_le_of_lt h4 h2) (not_lt.2 this)

/-- When the next line is reached the segments are still in order. -/
theorem RestG.arrive [DenselyOrdered K] (hG : E.Generic) (hs : E.Sched) {yl : WithBot K} {s : State K} (hb : Between E yl s) (hr : RestG E yl s) {N : K}
    (hy : nextY E s = some N) {a b : Nat} (hab : [a, b].Sublist (newSegs s.line)) : E.InOrder N a b := by
  obtain ⟨hlt, hon⟩ := hb.next hs hy
  have ha : a ∈ newSegs s.line := hab.subset (by simp)
  have hbm : b ∈ newSegs s.line := hab.subset (by simp)
  have hst : ∀ x ∈ newSegs s.line, E.startY x < N := fun x hx => WithBot.coe_lt_coe.1 (((hb.mem x).1 hx).2.2.1.trans_lt hlt)
  refine ⟨?_, fun h => absurd h (hst a ha).ne, hr.tameAt hab⟩
  intro hsure
  have hne : a ≠ b := by
    rintro rfl
    exact hG.comparable.sure_irrefl hsure
  obtain ⟨hwf, hstart, hen⟩ := hG.comparable.wf b a N hsure.1 hsure.2.1
  have hlt' : (E.cmp b a).start < N := by rw [hstart]; exact max_lt (hst b hbm) (hst a ha)
  obtain ⟨q, hq, hqe⟩ := wf_last_mem hen
  obtain ⟨p, hp, p1, p2⟩ := hwf.2.exists_piece hlt' ⟨q, hq, hqe.ge⟩ (range_le hsure.1 hsure.2.1).2
  have hpo := hsure.2.2 p hp p1.le p2
  cases hyl : yl with
  | bot =>
    obtain ⟨_, _, h, _⟩ := (hb.mem a).1 ha
    rw [hyl] at h
    simp at h
  | coe y0 =>
    rw [hyl, WithBot.coe_lt_coe] at hlt
    obtain ⟨t, t1, t2⟩ := exists_between (max_lt hlt p1)
    obtain ⟨t3, t4⟩ := max_lt_iff.1 t1
    refine hr.between hG hs hb hy hab (t := t) (by rw [hyl]; exact WithBot.coe_lt_coe.2 t3) t2 ?_
    have hst0 : ∀ x ∈ newSegs s.line, E.startY x ≤ y0 := fun x hx => WithBot.coe_le_coe.1 (by rw [← hyl]; exact ((hb.mem x).1 hx).2.2.1)
    refine ⟨⟨hsure.1.1, (hst0 b hbm).trans t3.le, t2.le.trans hsure.1.2.2⟩, ⟨hsure.2.1.1, (hst0 a ha).trans t3.le, t2.le.trans hsure.2.1.2.2⟩, ?_⟩
    intro x hx h1 h2
    obtain ⟨as, bs, e⟩ := List.append_of_mem hp
    have ht := hwf.2
    rw [e] at ht hx
    rw [List.mem_append, List.mem_cons] at hx
    rcases hx with hx | rfl | hx
    · exact absurd ((ht.split.1 x hx).2.2) (not_le.2 (t4.trans_le h2))
    · exact hpo
    · exact absurd ((ht.split.2.2.2 x hx).1) (not_le.2 (h1.trans_lt (t2.trans_le p2)))

theorem pairwise_of_sublist {R : Nat → Nat → Prop} (l : List Nat) (h : ∀ a b, [a, b].Sublist l → R a b) : l.Pairwise R := by
  rw [List.pairwise_iff_forall_sublist]
  exact fun {a b} hab => h a b hab

theorem handleAll_height {f : State K → Nat → Option (State K)} (l : List (K × Nat)) : ∀ {s s' : State K}, handleAll f y l s = some s' → ∀ p ∈ l, p.1 = y := by
  induction l with
  | nil => intro s s' _ p hp; simp at hp
  | cons p l ih =>
    intro s s' he
    simp only [handleAll] at he
    split_ifs at he with h1
    split at he
    · simp at he
    rename_i s1 hs1
    intro q hq
    rcases List.mem_cons.1 hq with rfl | hq
    · exact h1
    · exact ih he q hq

/-- The state when all that enters and exits on a line has been handled. -/
theorem beforeInts_generic [DenselyOrdered K] (hG : E.Generic) (hs : E.Sched) (hpp : E.PP) {yl : WithBot K} {s w : State K} (hb : Between E yl s) {y : K}
    (hy : nextY E s = some y) (h : beforeInts E s = some w) (hr : RestG E yl s) : GoodG E y w := by
  obtain ⟨hlt, hnew⟩ := hb.next hs hy
  have hst : ∀ x ∈ newSegs s.line, E.startY x < y := fun x hx => WithBot.coe_lt_coe.1 (((hb.mem x).1 hx).2.2.1.trans_lt hlt)
  unfold beforeInts at h
  rw [hy] at h
  dsimp only at h
  split at h
  · simp at h
  rename_i s1 hs1
  obtain ⟨a1, a2, a3, a4, a5, a6, a7, a8⟩ := advance_spec hb.done hs1
  split at h
  · simp at h
  rename_i s2 hs2
  have hseg1 : s1.line.map Entry.seg = newSegs s.line := by rw [a2]; exact segsOf_new _
  have g1 : GoodG E y { s1 with nextEnter := s1.nextEnter + (atHeight y E.entrances s1.nextEnter).length } := by
    refine ⟨a1, ⟨?_, ?_, ?_⟩, ?_⟩
    · intro f hf
      refine hnew _ ?_
      rw [← hseg1]; exact List.mem_map_of_mem hf
    · show (s1.line.map Entry.seg).Nodup
      rw [hseg1]; exact hb.nodup
    · rw [← List.pairwise_map (f := Entry.seg) (R := E.InOrder y)]
      show (s1.line.map Entry.seg).Pairwise _
      rw [hseg1]
      exact pairwise_of_sublist _ fun a b hab => hr.arrive hG hs hb hy hab
    · show ∀ ev ∈ s1.ints, EvDue E ev
      rw [a5]; exact hr.evs
  have hsub : (atHeight y E.entrances s1.nextEnter).Sublist E.entrances := (List.takeWhile_prefix _).sublist.trans (List.drop_sublist _ _)
  have hall := handleAll_height _ hs2
  have g2 := handleAll_enter_generic hG hpp _ g1 (fun p hp => by
      have h1 : p ∈ E.entrances := hsub.subset hp
      exact ⟨List.mem_map_of_mem h1, hs.enter_y p h1, hs.down p.2 (List.mem_map_of_mem h1)⟩) (hs.enter_nodup.sublist (hsub.map _)) (by
      intro p hp f hf he
      have h1 : f.seg ∈ newSegs s.line := by rw [← hseg1]; exact List.mem_map_of_mem hf
      have h2 := hst _ h1
      rw [he, ← hs.enter_y p (hsub.subset hp), hall p hp] at h2
      exact lt_irrefl _ h2) hs2
  exact handleAll_exit_generic hG _ (s := { s2 with nextExit := s2.nextExit + (atHeight y E.exits s2.nextExit).length }) ⟨g2.1, g2.2, g2.3⟩ h

/-! ## The loop over the intersections -/

/-- A state in the course of the loop that starts at `w`. -/
structure MidG (E : Env K) (y : K) (w u : State K) : Prop where
  good : GoodG E y u
  move : MoveInv w.line u.line u.snp

theorem MidG.hold {w u : State K} (hold : ∀ f ∈ w.line, ∀ o, f.oldSeg = some o → E.endY o = y) (h : MidG E y w u) :
    ∀ f ∈ u.line, ∀ o, f.oldSeg = some o → E.endY o = y :=
  core_facts h.move (P := fun f => ∀ o, f.oldSeg = some o → E.endY o = y) (fun e f hef h o ho => h o (by rw [← (core_tuple hef).2.2.2]; exact ho)) hold

theorem MidG.step (hG : E.Generic) {w u u' : State K} (hold : ∀ f ∈ w.line, ∀ o, f.oldSeg = some o → E.endY o = y) (h : MidG E y w u)
    {ev : IEvent K} {rest : List (IEvent K)} (h1 : u.ints = ev :: rest) (h2 : ev.y = u.y) (h3 : handleIntersection E { u with ints := rest } ev.left ev.right = some u') :
    MidG E y w u' ∧ ((∃ A B, u.line.map Entry.seg = A ++ ev.left :: ev.right :: B ∧ u'.line.map Entry.seg = A ++ ev.right :: ev.left :: B) ∨
      (u'.line = u.line ∧ [ev.right, ev.left].Sublist (u.line.map Entry.seg) ∧ ∀ e ∈ u'.ints, e ∈ rest ∨ Seen E y u.line e)) := by
  have hevs := h.good.evs
  rw [h1] at hevs
  obtain ⟨g1, g2⟩ := handleIntersection_generic hG (s := { u with ints := rest }) ⟨h.good.y_eq, h.good.line, fun e he => hevs e (List.mem_cons_of_mem _ he)⟩
    (MidG.hold (w := w) (u := u) hold h) (hevs ev (by simp)) (h2.trans h.good.y_eq) h3
  obtain ⟨k1, -⟩ := handleIntersection_spec h3
  exact ⟨⟨g1, k1.moveInv (M := w.line) h.move⟩, g2⟩

theorem LoopFrom.generic (hG : E.Generic) {w u : State K} (hold : ∀ f ∈ w.line, ∀ o, f.oldSeg = some o → E.endY o = y) (hw : GoodG E y w)
    (hm : MoveInv w.line w.line w.snp) (h : LoopFrom E w u) : MidG E y w u := by
  induction h with
  | start => exact ⟨hw, hm⟩
  | step v v' ev rest _ h1 h2 h3 ih => exact (ih.step hG hold h1 h2 h3).1

theorem intLoop_generic (hG : E.Generic) {w : State K} (hold : ∀ f ∈ w.line, ∀ o, f.oldSeg = some o → E.endY o = y) (fuel : Nat) :
    ∀ {u v : State K}, MidG E y w u → intLoop E fuel u = some v → MidG E y w v := by
  induction fuel with
  | zero => intro u v _ h; simp [intLoop] at h
  | succ fuel ih =>
    intro u v hu h
    simp only [intLoop] at h
    split at h
    · simp only [Option.some.injEq] at h
      subst h
      exact hu
    rename_i ev rest hi
    split at h
    · rename_i hye
      split at h
      · simp at h
      rename_i s1 hs1
      exact ih (hu.step hG hold hi hye hs1).1 h
    · simp only [Option.some.injEq] at h
      subst h
      exact hu

theorem nextLine_generic [DenselyOrdered K] (hG : E.Generic) (hs : E.Sched) (hpp : E.PP) {yl : WithBot K} {s s' : State K} {fuel : Nat} (hb : Between E yl s)
    (h : nextLine E fuel s = some (some s')) (hr : RestG E yl s) : RestG E s'.y s' ∧ OnLineG E s'.y s'.line := by
  obtain ⟨hlt, ⟨w, v, p1, p2, p3, p4, p5, p6, hF⟩, hb', hny⟩ := nextLine_parts hs hpp hb h
  have hold : ∀ f ∈ w.line, ∀ o, f.oldSeg = some o → E.endY o = s'.y := by
    intro f hf o ho
    rcases hF.kinds f hf with ⟨a, b, c⟩ | ⟨a, b, c, d⟩ | ⟨o', a, b, c, d, e1, e2, e3, e4⟩ | ⟨a, b, c, d⟩
    · rw [c] at ho; simp at ho
    · rw [c] at ho; simp at ho
    · rw [c, Option.some.injEq] at ho
      rw [← ho]; exact e4
    · rw [c] at ho; simp at ho
  have hw := beforeInts_generic hG hs hpp hb hny p1 hr
  have hv := intLoop_generic hG hold fuel ⟨hw, p5⟩ p3
  have hcore : s'.line.map Entry.seg = v.line.map Entry.seg := by
    have := congrArg (List.map Entry.seg) hF.chg.same.core_map
    simpa [Entry.core, Function.comp_def] using this
  have hline := hv.good.line.congr hcore
  refine ⟨⟨?_, ?_, ?_⟩, hline⟩
  · rw [← p4]; exact hv.good.evs
  · intro y0 hy0
    obtain rfl := WithBot.coe_inj.1 hy0
    have hsafe : ∀ w' u ev, beforeInts E s = some w' → LoopFrom E w' u → u.ints.head? = some ev → ev.y = u.y → SwapSafe E u ev.left ev.right := by
      intro w' u ev h1 h2 h3 h4
      rw [p1, Option.some.injEq] at h1
      subst h1
      have hu := h2.generic hG hold hw p5
      exact swapSafe_generic hG hu.good.y_eq hu.good.line (hu.hold hold) (hu.good.evs ev (List.mem_of_mem_head? (Option.mem_def.2 h3))) (h4.trans hu.good.y_eq)
    cases hyl : yl with
    | bot =>
      refine nextLine_crossings hs hpp hG.sound (y0 := s'.y) hb h le_rfl hsafe ?_
      intro X hX a M b e
      have : newSegs s.line = [] := by
        rw [List.eq_nil_iff_forall_not_mem]
        intro x hx
        obtain ⟨_, _, h, _⟩ := (hb.mem x).1 hx
        rw [hyl] at h; simp at h
      rw [this] at hX
      have : X = [] := by simpa using hX
      rw [this] at e; simp at e
    | coe y1 =>
      exact nextLine_crossings hs hpp hG.sound hb h (WithBot.coe_le_coe.1 (by rw [← hyl]; exact hlt.le)) hsafe (hr.cross y1 hyl)
  · have ho : (s'.line.map Entry.seg).Pairwise fun a b => E.InOrder s'.y a b := List.pairwise_map.2 hline.order
    exact (ho.sublist (newSegs_sublist _)).imp fun h => h.2.2

theorem Reached.generic [DenselyOrdered K] (hG : E.Generic) (hs : E.Sched) (hpp : E.PP) {fuel : Nat} {s : State K} (h : Reached E fuel s) :
    RestG E s.y s ∧ OnLineG E s.y s.line := by
  induction h with
  | first s h => exact nextLine_generic hG hs hpp (Between.init E) h (RestG.init E)
  | next s s' hr h ih => exact nextLine_generic hG hs hpp (hr.spec hs hpp).1 h ih.1

/-! ## Counting -/

open Classical in
/-- The pairs of segments that are in the order of the line and about to cross. -/
noncomputable def Env.dues (E : Env K) (y : K) (L : List Nat) : Finset (Nat × Nat) :=
  (E.segs.toFinset ×ˢ E.segs.toFinset).filter fun p => [p.1, p.2].Sublist L ∧ E.Due y p.1 p.2

open Classical in
/-- The events of the queue that are due but whose segments are not in the order of the line. -/
noncomputable def Env.idle (E : Env K) (y : K) (L : List Nat) (q : List (IEvent K)) : Finset (Nat × Nat) :=
  (E.segs.toFinset ×ˢ E.segs.toFinset).filter fun p => (⟨y, p.1, p.2⟩ : IEvent K) ∈ q ∧ ¬ [p.1, p.2].Sublist L

theorem pair_swap {A B : List Nat} {a b x z : Nat} (h : [x, z].Sublist (A ++ b :: a :: B)) (hn : (A ++ a :: b :: B).Nodup) :
    [x, z].Sublist (A ++ a :: b :: B) ∨ (x = b ∧ z = a) := by
  rw [List.sublist_append_iff] at h
  obtain ⟨l1, l2, e, h1, h2⟩ := h
  match l1, l2, e, h1, h2 with
  | [], l2, e, h1, h2 =>
    rw [List.nil_append] at e
    subst e
    cases h2 with
    | cons _ h2 =>
      -- both in `a :: B`
      left
      refine List.Sublist.trans ?_ (List.sublist_append_right A (a :: b :: B))
      cases h2 with
      | cons _ h2 => exact (h2.cons b).cons a
      | cons_cons _ h2 => exact (h2.cons b).cons_cons a
    | cons_cons _ h2 =>
      cases h2 with
      | cons _ h2 =>
        left
        refine List.Sublist.trans ?_ (List.sublist_append_right A (a :: b :: B))
        exact (h2.cons_cons b).cons a
      | cons_cons _ h2 => exact .inr ⟨rfl, rfl⟩
  | [u], l2, e, h1, h2 =>
    simp only [List.singleton_append, List.cons.injEq] at e
    obtain ⟨rfl, rfl⟩ := e
    left
    have hz : z ∈ b :: a :: B := h2.subset (by simp)
    refine h1.append (List.singleton_sublist.2 ?_)
    simp only [List.mem_cons] at hz ⊢
    tauto
  | [u, v], l2, e, h1, h2 =>
    left
    simp only [List.cons_append, List.nil_append, List.cons.injEq] at e
    obtain ⟨rfl, rfl, h3⟩ := e
    exact h1.trans (List.sublist_append_left _ _)
  | u :: v :: w :: l1, l2, e, h1, h2 => simp at e

theorem not_both {L : List Nat} (hn : L.Nodup) {a b : Nat} (h1 : [a, b].Sublist L) : ¬ [b, a].Sublist L := by
  intro h2
  rw [List.nodup_iff_sublist] at hn
  obtain ⟨r1, r2, e1, e2, e3⟩ := List.cons_sublist_iff.1 h1
  have hb : b ∈ r2 := List.singleton_sublist.1 e3
  subst e1
  have ha : a ∉ r2 := by
    intro ha
    exact hn a ((List.singleton_sublist.2 e2).append (List.singleton_sublist.2 ha))
  have hb' : b ∉ r1 := by
    intro hb'
    exact hn b ((List.singleton_sublist.2 hb').append (List.singleton_sublist.2 hb))
  rw [List.sublist_append_iff] at h2
  obtain ⟨l1, l2, e, h1, h2⟩ := h2
  match l1, l2, e, h1, h2 with
  | [], l2, e, h1, h2 =>
    rw [List.nil_append] at e
    subst e
    exact ha (h2.subset (by simp))
  | [u], l2, e, h1, h2 =>
    simp only [List.singleton_append, List.cons.injEq] at e
    obtain ⟨rfl, rfl⟩ := e
    exact hb' (h1.subset (by simp))
  | u :: v :: l1, l2, e, h1, h2 =>
    simp only [List.cons_append, List.cons.injEq] at e
    obtain ⟨rfl, rfl, h3⟩ := e
    exact hb' (h1.subset (by simp))

/-- The number of steps that may still be made on a line. -/
noncomputable def Env.steps (E : Env K) (y : K) (s : State K) : Nat :=
  (E.dues y (s.line.map Entry.seg)).card * (E.segs.length * E.segs.length + 1) + (E.idle y (s.line.map Entry.seg) s.ints).card

theorem card_pairs (p : Nat × Nat → Prop) [DecidablePred p] : ((E.segs.toFinset ×ˢ E.segs.toFinset).filter p).card ≤ E.segs.length * E.segs.length := by
  refine (Finset.card_filter_le _ _).trans ?_
  rw [Finset.card_product]
  exact Nat.mul_le_mul (List.toFinset_card_le _) (List.toFinset_card_le _)

theorem MidG.steps_lt (hG : E.Generic) {w u u' : State K} (hold : ∀ f ∈ w.line, ∀ o, f.oldSeg = some o → E.endY o = y) (h : MidG E y w u) (hq : QSorted u.ints)
    {ev : IEvent K} {rest : List (IEvent K)} (h1 : u.ints = ev :: rest) (h2 : ev.y = u.y) (h3 : handleIntersection E { u with ints := rest } ev.left ev.right = some u') :
    E.steps y u' < E.steps y u := by
  classical
  obtain ⟨g1, g2⟩ := h.step hG hold h1 h2 h3
  have hye : ev.y = y := h2.trans h.good.y_eq
  obtain ⟨v1, v2, v3, v4, v5, v6⟩ := h.good.evs ev (by rw [h1]; simp)
  rw [hye] at v1 v2 v4 v5 v6
  have hnd := h.good.line.nodup
  unfold Env.steps
  rcases g2 with ⟨A, B, e1, e2⟩ | ⟨e1, e2, e3⟩
  · have hsub : [ev.left, ev.right].Sublist (u.line.map Entry.seg) := by
      rw [e1]
      exact (((List.nil_sublist B).cons_cons _).cons_cons _).trans (List.sublist_append_right _ _)
    have hlt : (E.dues y (u'.line.map Entry.seg)).card < (E.dues y (u.line.map Entry.seg)).card := by
      refine Finset.card_lt_card ⟨?_, ?_⟩
      · intro p hp
        unfold Env.dues at hp ⊢
        rw [Finset.mem_filter] at hp ⊢
        obtain ⟨k1, k2, k3⟩ := hp
        refine ⟨k1, ?_, k3⟩
        rw [e2] at k2
        rw [e1] at hnd ⊢
        rcases pair_swap k2 hnd with h | ⟨h, h'⟩
        · exact h
        · rw [h, h'] at k3
          exact absurd k3 (v6.asymm hG v1 v2 v3 v4 v5)
      · intro hss
        have : (ev.left, ev.right) ∈ E.dues y (u.line.map Entry.seg) := by
          unfold Env.dues
          rw [Finset.mem_filter, Finset.mem_product, List.mem_toFinset, List.mem_toFinset]
          exact ⟨⟨v1.1.1, v2.1.1⟩, hsub, v6⟩
        have := hss this
        unfold Env.dues at this
        rw [Finset.mem_filter] at this
        refine not_both g1.good.line.nodup this.2.1 ?_
        rw [e2]
        exact (((List.nil_sublist B).cons_cons _).cons_cons _).trans (List.sublist_append_right _ _)
    have hi : (E.idle y (u'.line.map Entry.seg) u'.ints).card ≤ E.segs.length * E.segs.length := card_pairs _
    have : ((E.dues y (u'.line.map Entry.seg)).card + 1) * (E.segs.length * E.segs.length + 1) ≤ (E.dues y (u.line.map Entry.seg)).card * (E.segs.length * E.segs.length + 1) :=
      Nat.mul_le_mul_right _ hlt
    rw [Nat.add_mul] at this
    omega
  · rw [e1]
    refine Nat.add_lt_add_left (Finset.card_lt_card ⟨?_, ?_⟩) _
    · intro p hp
      unfold Env.idle at hp ⊢
      rw [Finset.mem_filter] at hp ⊢
      obtain ⟨k1, k2, k3⟩ := hp
      refine ⟨k1, ?_, k3⟩
      rcases e3 _ k2 with h | h
      · rw [h1]; exact List.mem_cons_of_mem _ h
      · exact absurd (h.2 rfl) k3
    · intro hss
      have hm : (ev.left, ev.right) ∈ E.idle y (u.line.map Entry.seg) u.ints := by
        unfold Env.idle
        rw [Finset.mem_filter, Finset.mem_product, List.mem_toFinset, List.mem_toFinset]
        refine ⟨⟨v1.1.1, v2.1.1⟩, ?_, not_both hnd e2⟩
        rw [h1, ← hye]; simp
      have := hss hm
      unfold Env.idle at this
      rw [Finset.mem_filter] at this
      rcases e3 _ this.2.1 with h | h
      · rw [h1] at hq
        have hn := hq.nodup
        rw [List.nodup_cons] at hn
        apply hn.1
        rw [← hye] at h
        exact h
      · exact this.2.2 (h.2 rfl)

theorem Busy.generic (hG : E.Generic) {w : State K} (hold : ∀ f ∈ w.line, ∀ o, f.oldSeg = some o → E.endY o = y) {n : Nat} {u : State K} (h : Busy E n u)
    (hu : MidG E y w u) (hq : QInv y u.ints) : n ≤ E.steps y u := by
  induction h with
  | zero s => exact Nat.zero_le _
  | succ n s s' ev rest h1 h2 h3 _ ih =>
    have hlt := hu.steps_lt hG hold hq.1 h1 h2 h3
    obtain ⟨-, k2, -⟩ := handleIntersection_spec h3
    have hq' : QInv y s'.ints := by
      have := k2 (by
        show QInv s.y rest
        rw [hu.good.y_eq]
        rw [h1] at hq
        exact ⟨(List.pairwise_cons.1 hq.1).2, fun x hx => hq.2 x (by simp [hx])⟩)
      change QInv s.y _ at this
      rwa [hu.good.y_eq] at this
    have := ih (hu.step hG hold h1 h2 h3).1 hq'
    omega

theorem steps_le (s : State K) : E.steps y s ≤ (E.segs.length * E.segs.length + 1) * (E.segs.length * E.segs.length + 1) - 1 := by
  classical
  unfold Env.steps
  have h1 : (E.dues y (s.line.map Entry.seg)).card ≤ E.segs.length * E.segs.length := card_pairs _
  have h2 : (E.idle y (s.line.map Entry.seg) s.ints).card ≤ E.segs.length * E.segs.length := card_pairs _
  have h3 := Nat.mul_le_mul_right (E.segs.length * E.segs.length + 1) h1
  have h4 : (E.segs.length * E.segs.length + 1) * (E.segs.length * E.segs.length + 1) =
      E.segs.length * E.segs.length * (E.segs.length * E.segs.length + 1) + (E.segs.length * E.segs.length + 1) := by rw [Nat.add_mul, Nat.one_mul]
  omega

variable {W : Type} [AddCommGroup W] {single : Nat → Bool → W}

/-- The states between the lines. -/
theorem Lines.generic [DenselyOrdered K] (hC : E.Contours single) (hs : E.Sched) (hpp : E.PP) (hG : E.Generic) {fuel2 n : Nat} {s s' : State K}
    (h : Lines E fuel2 n s s') : ∀ {yl : WithBot K}, Idle E yl s → RestG E yl s → ∃ yl', Idle E yl' s' ∧ RestG E yl' s' := by
  induction h with
  | zero s => intro yl hI hg; exact ⟨yl, hI, hg⟩
  | succ n s s' s'' hn _ ih =>
    intro yl hI hg
    exact ih (hI.next hC hs hG.comparable hpp hn).2.2 (nextLine_generic hG hs hpp hI.between hn hg).1

/-- If the segments are in general position, the sweep returns. -/
theorem fromSegments_generic [DenselyOrdered K] {fuel2 : Nat} (hV : E.Sane single fuel2) (hG : E.Generic) {fuel : Nat} (hf : E.heights.length < fuel)
    (hf2 : (E.segs.length * E.segs.length + 1) * (E.segs.length * E.segs.length + 1) ≤ fuel2) : ∃ t, fromSegments E single fuel2 fuel = some t := by
  rcases fromSegments_returns hV hf with h | ⟨n, s', w, h1, h2, h3⟩
  · exact h
  · exfalso
    obtain ⟨yl, hI, hg⟩ := h1.generic hV.contours hV.sched hV.pp hG (Idle.init E) (RestG.init E)
    cases hy : nextY E s' with
    | none => unfold beforeInts at h2; rw [hy] at h2; simp at h2
    | some y =>
      obtain ⟨w', k1, hR⟩ := beforeInts_total hV.contours hV.sched hV.comparable hV.pp hI.between hI.snp hy
      rw [h2, Option.some.injEq] at k1
      subst k1
      have hGd := beforeInts_generic hG hV.sched hV.pp hI.between hy h2 hg
      have h4 := h3.generic hG hR.hold ⟨hGd, hR.move⟩ hR.queue
      have h5 := steps_le (E := E) (y := y) w
      have h6 : 0 < (E.segs.length * E.segs.length + 1) * (E.segs.length * E.segs.length + 1) := Nat.mul_pos (Nat.succ_pos _) (Nat.succ_pos _)
      omega

end
end Verif.Sweep
