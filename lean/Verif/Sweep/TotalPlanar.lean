import Verif.Sweep.TotalCount
import Verif.Sweep.Planar

/-!
# Segments that do not cross: the intersections come to an end

All events are touches, handling one puts only later events in the queue, and the queue never has an event twice. So on one line there are at
most as many intersections to handle as there are pairs of segments.
-/

namespace Verif.Sweep
open Verif.Curve Verif.Range Verif.Topo Verif.Scan
set_option linter.unusedSectionVars false

variable {K : Type} [LinearOrder K] {W : Type} [AddCommGroup W] {E : Env K} {single : Nat → Bool → W}

theorem touchEvent_later (hP : E.Planar) {y : K} {a b : Nat} (ha : E.On y a) (hb : E.On y b)
    (hab : ¬ E.Lt b a) {ev : IEvent K} (h : touchEvent E y a b = some (some ev)) : y < ev.y := by
  obtain ⟨hwf, hst, hen⟩ := hP.wf a b y ha hb
  obtain ⟨r, hr, hsp⟩ := C11_next_touch E.mid (E.cmp a b) hwf y ((E.cmp a b).cmps.length + 1) (Nat.lt_succ_self _)
  unfold touchEvent touch at h
  rw [hr] at h
  cases r with
  | none => simp at h
  | some i =>
    cases i with
    | cross z =>
      obtain ⟨as, p, bs, e1, e2, _⟩ := hsp
      exact absurd (hP.right a b y ha hb p (by rw [e1]; simp) e2) hab
    | touch z =>
      dsimp only at h
      by_cases hz : y < z
      case neg => rw [if_neg hz] at h; simp at h
      rw [if_pos hz] at h
      simp only [Option.some.injEq] at h
      subst h
      exact hz

section
variable {y : K} {line : List Entry} {i : Nat} {q q' : List (IEvent K)}

theorem scanRight_later (hP : E.Planar) (hon : ∀ f ∈ line, E.On y f.seg) (hs : Sorted E line) (h : scanRight E y line i q = some q') :
    ∀ ev ∈ q', ev ∈ q ∨ y < ev.y := by
  unfold scanRight at h
  split at h
  · simp at h
  rename_i e he
  by_cases h1 : E.endY e.seg = y
  · rw [if_pos h1, Option.some.injEq] at h; subst h; exact fun ev hev => .inl hev
  rw [if_neg h1] at h
  obtain ⟨l1, l2, e1, e2, _, _⟩ := split_at he
  have hd : line.drop (i + 1) = l2 := by rw [e1, ← e2]; simp
  rw [hd] at h
  refine scanRightLoop_touching (P := fun ev => ev ∈ q ∨ y < ev.y) l2 ?_ _ _ _ h fun ev hev => .inl hev
  intro o ho hoy ev hev
  right
  refine touchEvent_later hP (hon e (by rw [e1]; simp)) (hon o (by rw [e1]; simp [ho])) ?_ hev
  unfold Sorted at hs
  rw [e1, List.pairwise_append, List.pairwise_cons] at hs
  exact hs.2.1.1 o ho

theorem scanLeft_later (hP : E.Planar) (hon : ∀ f ∈ line, E.On y f.seg) (hs : Sorted E line) (h : scanLeft E y line i q = some q') :
    ∀ ev ∈ q', ev ∈ q ∨ y < ev.y := by
  unfold scanLeft at h
  split at h
  · simp at h
  rename_i e he
  by_cases h1 : E.endY e.seg = y
  · rw [if_pos h1, Option.some.injEq] at h; subst h; exact fun ev hev => .inl hev
  rw [if_neg h1] at h
  obtain ⟨l1, l2, e1, e2, _, _⟩ := split_at he
  have hd : line.take i = l1 := by rw [e1, ← e2]; simp
  rw [hd] at h
  refine scanLeftLoop_touching (P := fun ev => ev ∈ q ∨ y < ev.y) l1.reverse ?_ _ _ _ h fun ev hev => .inl hev
  intro o ho hoy ev hev
  rw [List.mem_reverse] at ho
  right
  refine touchEvent_later hP (hon o (by rw [e1]; simp [ho])) (hon e (by rw [e1]; simp)) ?_ hev
  unfold Sorted at hs
  rw [e1, List.pairwise_append] at hs
  exact hs.2.2 o ho e (by simp)

/-- Handling a touch puts only later events in the queue. -/
theorem handleIntersection_later (hP : E.Planar) {s s' : State K} {ev : IEvent K} (hg : Good E y s) (hold : ∀ f ∈ s.line, ∀ o, f.oldSeg = some o → E.endY o = y)
    (hev : E.Lt ev.right ev.left ∧ ev.y < E.endY ev.left ∧ ev.y < E.endY ev.right) (hye : ev.y = y)
    (h : handleIntersection E s ev.left ev.right = some s') : ∀ e ∈ s'.ints, e ∈ s.ints ∨ y < e.y := by
  obtain ⟨hy, hon, hs, hq⟩ := hg
  have hpos : ∀ x n, position s.line x = some n → y < E.endY x → ∃ e, s.line[n]? = some e ∧ e.seg = x := by
    intro x n hn hx
    obtain ⟨e, h1, h2⟩ := position_some hn
    rcases h2 with h2 | h2
    · exact ⟨e, h1, h2⟩
    · rw [hold e (List.mem_of_getElem? h1) x h2] at hx
      exact absurd hx (lt_irrefl _)
  unfold handleIntersection at h
  split at h
  · rename_i l r hl hr
    obtain ⟨el, l1, l2⟩ := hpos _ _ hl (by rw [← hye]; exact hev.2.1)
    obtain ⟨er, r1, r2⟩ := hpos _ _ hr (by rw [← hye]; exact hev.2.2)
    by_cases hlr : l < r
    · exfalso
      obtain ⟨hl', hle⟩ := List.getElem?_eq_some_iff.1 l1
      obtain ⟨hr', hre⟩ := List.getElem?_eq_some_iff.1 r1
      have := (List.pairwise_iff_getElem.1 hs) l r hl' hr' hlr
      rw [hle, hre, l2, r2] at this
      exact this hev.1
    · rw [if_neg hlr, Option.map_eq_some_iff] at h
      obtain ⟨q2, hq2, rfl⟩ := h
      rw [Option.bind_eq_some_iff] at hq2
      obtain ⟨q1, hq1, hq2⟩ := hq2
      rw [hy] at hq1 hq2
      intro e he
      rcases scanLeft_later hP hon hs hq2 e he with h1 | h1
      · exact scanRight_later hP hon hs hq1 e h1
      · exact .inr h1
  · simp at h

end

theorem QSorted.nodup {q : List (IEvent K)} (h : QSorted q) : q.Nodup := by
  refine h.imp ?_
  rintro a b hab rfl
  simp [IEvent.lt_irrefl] at hab

/-- The events of the queue that are to be handled at the height `y`. -/
def due (y : K) (q : List (IEvent K)) : List (IEvent K) := q.filter fun ev => decide (ev.y = y)

/-- At most as many intersections are handled as are due at the beginning. -/
theorem Busy.le (hP : E.Planar) {y : K} {n : Nat} {s : State K} (h : Busy E n s) (hg : Good E y s) (hold : ∀ f ∈ s.line, ∀ o, f.oldSeg = some o → E.endY o = y)
    (hq : QInv y s.ints) : n ≤ (due y s.ints).length := by
  induction h with
  | zero s => exact Nat.zero_le _
  | succ n s s' ev rest h1 h2 h3 _ ih =>
    have hye : ev.y = y := h2.trans hg.y_eq
    have ht := hg.touching
    rw [h1] at ht
    have hg0 : Good E y { s with ints := rest } := ⟨hg.y_eq, hg.on, hg.sorted, fun e he => ht e (List.mem_cons_of_mem _ he)⟩
    obtain ⟨g1, g2⟩ := handleIntersection_good hP hg0 hold (ht ev (by simp)) hye h3
    have hlater := handleIntersection_later hP hg0 hold (ht ev (by simp)) hye h3
    obtain ⟨-, k2, -⟩ := handleIntersection_spec h3
    have hq' : QInv y s'.ints := by
      have := k2 (by
        show QInv s.y rest
        rw [hg.y_eq]
        rw [h1] at hq
        exact ⟨(List.pairwise_cons.1 hq.1).2, fun x hx => hq.2 x (by simp [hx])⟩)
      change QInv s.y _ at this
      rwa [hg.y_eq] at this
    have := ih g1 (by rw [g2]; exact hold) hq'
    have hle : (due y s'.ints).length ≤ (due y rest).length := by
      refine (List.subperm_of_subset (hq'.1.nodup.filter _) ?_).length_le
      intro e he
      rw [List.mem_filter, decide_eq_true_eq] at he
      rcases hlater e he.1 with h | h
      · exact List.mem_filter.2 ⟨h, by simpa using he.2⟩
      · rw [he.2] at h; exact absurd h (lt_irrefl _)
    have : (due y s.ints).length = (due y rest).length + 1 := by
      rw [h1]; unfold due; rw [List.filter_cons_of_pos (by simpa using hye), List.length_cons]
    omega

/-- No more intersections are due than there are pairs of segments. -/
theorem due_le {y : K} {q : List (IEvent K)} (hq : QSorted q) (hl : Live E y q) : (due y q).length ≤ E.segs.length * E.segs.length := by
  have hn : ((due y q).map fun ev => (ev.left, ev.right)).Nodup := by
    refine List.Nodup.map_on ?_ (hq.nodup.filter _)
    intro a ha b hb hab
    unfold due at ha hb
    rw [List.mem_filter, decide_eq_true_eq] at ha hb
    rcases a with ⟨ay, al, ar⟩
    rcases b with ⟨bz, bl, br⟩
    simp only [Prod.mk.injEq] at hab
    obtain ⟨rfl, rfl⟩ := hab
    have h1 : ay = y := ha.2
    have h2 : bz = y := hb.2
    rw [h1, h2]
  have := (List.subperm_of_subset (l₂ := E.segs ×ˢ E.segs) hn (by
    intro p hp
    obtain ⟨ev, h1, rfl⟩ := List.mem_map.1 hp
    have := hl ev (List.mem_filter.1 h1).1
    exact List.mem_product.2 ⟨this.left.1, this.right.1⟩)).length_le
  rwa [List.length_map, List.length_product] at this

/-- The state when all that enters and exits on a line has been handled. -/
theorem beforeInts_good (hs : E.Sched) (hpp : E.PP) (hP : E.Planar) {yl : WithBot K} {s w : State K} (hb : Between E yl s) {y : K} (hy : nextY E s = some y)
    (h : beforeInts E s = some w) (hg : (newSegs s.line).Pairwise (fun a b => ¬ E.Lt b a) ∧ Touching E s.ints) : Good E y w := by
  obtain ⟨hlt, hnew⟩ := hb.next hs hy
  unfold beforeInts at h
  rw [hy] at h
  dsimp only at h
  split at h
  · simp at h
  rename_i s1 hs1
  obtain ⟨a1, a2, a3, a4, a5, a6, a7, a8⟩ := advance_spec hb.done hs1
  split at h
  · simp at h
  rename_i s2 hs2
  have hseg1 : s1.line.map Entry.seg = newSegs s.line := by rw [a2]; exact segsOf_new _
  have g1 : Good E y { s1 with nextEnter := s1.nextEnter + (atHeight y E.entrances s1.nextEnter).length } := by
    refine ⟨a1, ?_, ?_, ?_⟩
    · intro f hf
      refine hnew _ ?_
      rw [← hseg1]; exact List.mem_map_of_mem hf
    · unfold Sorted
      rw [← List.pairwise_map (f := Entry.seg) (R := fun a b => ¬ E.Lt b a)]
      show (s1.line.map Entry.seg).Pairwise _
      rw [hseg1]; exact hg.1
    · show Touching E s1.ints
      rw [a5]; exact hg.2
  have g2 := handleAll_enter_good hP hpp _ g1 (fun p hp => by
      have h1 : p ∈ E.entrances := ((List.takeWhile_prefix _).sublist.trans (List.drop_sublist _ _)).subset hp
      exact ⟨List.mem_map_of_mem h1, hs.enter_y p h1, hs.down p.2 (List.mem_map_of_mem h1)⟩) hs2
  exact handleAll_exit_good hP _ (s := { s2 with nextExit := s2.nextExit + (atHeight y E.exits s2.nextExit).length }) ⟨g2.1, g2.2, g2.3, g2.4⟩ h

theorem Ready.hold {y : K} {S0 : List Nat} {w : State K} (h : Ready E y S0 w) : ∀ f ∈ w.line, ∀ o, f.oldSeg = some o → E.endY o = y := by
  intro f hf o ho
  rcases h.kinds f hf with ⟨a, b, c⟩ | ⟨a, b, c, d⟩ | ⟨o', a, b, c, d, e1, e2, e3, e4⟩ | ⟨a, b, c, d⟩
  · rw [c] at ho; simp at ho
  · rw [c] at ho; simp at ho
  · rw [c, Option.some.injEq] at ho
    rw [← ho]; exact e4
  · rw [c] at ho; simp at ho

/-- The states between the lines. -/
theorem Lines.planar (hC : E.Contours single) (hs : E.Sched) (hK : E.Comparable) (hpp : E.PP) (hP : E.Planar) {fuel2 n : Nat} {s s' : State K}
    (h : Lines E fuel2 n s s') : ∀ {yl : WithBot K}, Idle E yl s → (newSegs s.line).Pairwise (fun a b => ¬ E.Lt b a) ∧ Touching E s.ints →
      ∃ yl', Idle E yl' s' ∧ (newSegs s'.line).Pairwise (fun a b => ¬ E.Lt b a) ∧ Touching E s'.ints := by
  induction h with
  | zero s => intro yl hI hg; exact ⟨yl, hI, hg⟩
  | succ n s s' s'' hn _ ih =>
    intro yl hI hg
    obtain ⟨h1, h2⟩ := nextLine_good hs hpp hP hI.between hn hg
    exact ih (hI.next hC hs hK hpp hn).2.2 ⟨h1.sublist (newSegs_sublist _), h2⟩

/-- If no two segments cross, the sweep returns. -/
theorem fromSegments_planar {fuel2 : Nat} (hV : E.Sane single fuel2) (hP : E.Planar) {fuel : Nat} (hf : E.heights.length < fuel)
    (hf2 : E.segs.length * E.segs.length < fuel2) : ∃ t, fromSegments E single fuel2 fuel = some t := by
  rcases fromSegments_returns hV hf with h | ⟨n, s', w, h1, h2, h3⟩
  · exact h
  · exfalso
    obtain ⟨yl, hI, hg⟩ := h1.planar hV.contours hV.sched hV.comparable hV.pp hP (Idle.init E) (by
      refine ⟨?_, ?_⟩
      · show (newSegs []).Pairwise _
        exact List.Pairwise.nil
      · intro ev hev
        simp [State.new] at hev)
    cases hy : nextY E s' with
    | none => unfold beforeInts at h2; rw [hy] at h2; simp at h2
    | some y =>
      obtain ⟨w', k1, hR⟩ := beforeInts_total hV.contours hV.sched hV.comparable hV.pp hI.between hI.snp hy
      rw [h2, Option.some.injEq] at k1
      subst k1
      have hL := beforeInts_live hV.sched hV.comparable hI.between hI.waiting hy h2
      have hG := beforeInts_good hV.sched hV.pp hP hI.between hy h2 hg
      have h4 := h3.le hP hG hR.hold hR.queue
      have h5 := due_le hR.queue.1 hL
      omega

end Verif.Sweep
