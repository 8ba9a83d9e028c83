import Verif.Sweep.Total
import Verif.Sweep.Intersect

/-!
# The sweep does not panic: intersections

The events in the queue are legitimate: the two segments are still on the line at the height of the event, and go on below it. The
loop over the intersections can only fail by not coming to an end.
-/

namespace Verif.Sweep
open Verif.Curve Verif.Range Verif.Topo
set_option linter.unusedSectionVars false

variable {K : Type} [LinearOrder K] {E : Env K}

/-- The heights that one piece of a comparison can give to an event: where it starts, where it ends and its middle. -/
def Env.pieceHeights (E : Env K) (p : Piece K) : List K := [p.lo, p.hi, E.mid p.lo p.hi]

/-- All the heights at which there can be a sweep line: where a segment starts or ends, and the heights given by the pieces of the
comparisons of the segments. -/
def Env.heights (E : Env K) : List K :=
  E.entrances.map Prod.fst ++ E.exits.map Prod.fst ++
    E.segs.flatMap fun a => E.segs.flatMap fun b => (E.cmp a b).iter.flatMap E.pieceHeights

theorem Env.mem_heights {a b : Nat} (ha : a ∈ E.segs) (hb : b ∈ E.segs) {p : Piece K} (hp : p ∈ (E.cmp a b).iter) {z : K} (hz : z ∈ E.pieceHeights p) :
    z ∈ E.heights :=
  List.mem_append_right _ (List.mem_flatMap.2 ⟨a, ha, List.mem_flatMap.2 ⟨b, hb, List.mem_flatMap.2 ⟨p, hp, hz⟩⟩⟩)

/-- The segments of the event have started at the height `y`, and below the event, before they end, there is a height at which the right
one is to the left of the left one. -/
structure Legit (E : Env K) (y : K) (ev : IEvent K) : Prop where
  left : E.Tall ev.left
  right : E.Tall ev.right
  startL : E.startY ev.left ≤ y
  startR : E.startY ev.right ≤ y
  why : ∃ hi, ev.y < hi ∧ hi ≤ E.endY ev.left ∧ hi ≤ E.endY ev.right ∧ E.atY ev.right hi < E.atY ev.left hi
  height : ev.y ∈ E.heights

theorem Legit.later {y y' : K} {ev : IEvent K} (h : Legit E y ev) (hy : y ≤ y') : Legit E y' ev :=
  ⟨h.left, h.right, h.startL.trans hy, h.startR.trans hy, h.why, h.height⟩

theorem Legit.onL {y : K} {ev : IEvent K} (h : Legit E y ev) (hy : y ≤ ev.y) : E.On y ev.left := by
  obtain ⟨hi, h1, h2, h3, h4⟩ := h.why
  exact ⟨h.left, h.startL, (hy.trans h1.le).trans h2⟩

theorem Legit.onR {y : K} {ev : IEvent K} (h : Legit E y ev) (hy : y ≤ ev.y) : E.On y ev.right := by
  obtain ⟨hi, h1, h2, h3, h4⟩ := h.why
  exact ⟨h.right, h.startR, (hy.trans h1.le).trans h3⟩

/-- Only legitimate events. -/
def Live (E : Env K) (y : K) (q : List (IEvent K)) : Prop := ∀ ev ∈ q, Legit E y ev

theorem touchEvent_pending (hK : E.Comparable) {y : K} {a b : Nat} (ha : E.On y a) (hb : E.On y b) (hya : E.endY a ≠ y) (hyb : E.endY b ≠ y)
    (hH : y ∈ E.heights) {ev : IEvent K} (h : touchEvent E y a b = some (some ev)) : Legit E y ev := by
  obtain ⟨hwf, hst, hen⟩ := hK.wf a b y ha hb
  obtain ⟨r, hr, hsp⟩ := C11_next_touch E.mid (E.cmp a b) hwf y ((E.cmp a b).cmps.length + 1) (Nat.lt_succ_self _)
  unfold touchEvent touch at h
  rw [hr] at h
  have hlt : max (E.startY a) (E.startY b) < min (E.endY a) (E.endY b) :=
    lt_of_le_of_lt (max_le ha.2.1 hb.2.1) (lt_min (lt_of_le_of_ne ha.2.2 hya.symm) (lt_of_le_of_ne hb.2.2 hyb.symm))
  cases r with
  | none => simp at h
  | some i =>
    cases i with
    | cross z =>
      obtain ⟨as, p, bs, e1, e2, e3, e4, e5⟩ := hsp
      simp only [Option.some.injEq] at h
      subst h
      have hp : p ∈ (E.cmp a b).iter := by rw [e1]; simp
      have hpp := hK.strict a b y ha hb hlt p hp (by rw [e2]; simp)
      have ht := hwf.2
      rw [e1] at ht
      obtain ⟨t1, t2, t3, t4⟩ := ht.split
      have hpe := wf_hi_le hwf hen p hp
      have hz : z < p.hi := by
        rcases e5 with ⟨as', q, f1, f2, f3, f4⟩ | ⟨f1, f2, -⟩
        · obtain ⟨q1, q2, q3⟩ := t1 q (by rw [f1]; simp)
          rw [f4]
          exact lt_of_le_of_lt (hK.mid _ _ q2).2 (lt_of_le_of_lt q3 hpp)
        · exact f2
      have hzH : z ∈ E.heights := by
        rcases e5 with ⟨as', q, f1, f2, f3, f4⟩ | ⟨_, _, _, f4 | f4⟩
        · rw [f4]
          exact E.mem_heights ha.1.1 hb.1.1 (p := q) (by rw [e1, f1]; simp) (by simp [Env.pieceHeights])
        · rw [f4]; exact hH
        · rw [f4]
          exact E.mem_heights ha.1.1 hb.1.1 hp (by simp [Env.pieceHeights])
      refine ⟨ha.1, hb.1, ha.2.1, hb.2.1, ⟨p.hi, max_lt e3 hz, hpe.trans (min_le_left _ _), hpe.trans (min_le_right _ _), ?_⟩, ?_⟩
      · exact hK.right a b y ha hb p hp e2 p.hi t3 le_rfl
      · show max y z ∈ E.heights
        rcases max_choice y z with h | h <;> rw [h] <;> assumption
    | touch z =>
      obtain ⟨as, p, q, bs, e1, e2, e3, e4, e5, _⟩ := hsp
      dsimp only at h
      by_cases hz : y < z
      case neg => rw [if_neg hz] at h; simp at h
      rw [if_pos hz] at h
      simp only [Option.some.injEq] at h
      subst h
      have hq : q ∈ (E.cmp a b).iter := by rw [e1]; simp
      have hpq := hK.strict a b y ha hb hlt q hq (by rw [e3]; simp)
      have ht := hwf.2
      rw [e1] at ht
      obtain ⟨_, _, t3, t4⟩ := ht.split
      have t5 := (t4 q (by simp)).1
      have hqe := wf_hi_le hwf hen q hq
      refine ⟨hb.1, ha.1, hb.2.1, ha.2.1, ⟨q.hi, ?_, hqe.trans (min_le_right _ _), hqe.trans (min_le_left _ _),
        hK.left a b y ha hb q hq e3 q.hi hpq.le le_rfl⟩, ?_⟩
      · show z < q.hi
        rw [e5]
        exact lt_of_le_of_lt (hK.mid _ _ t3).2 (lt_of_le_of_lt t5 hpq)
      · show z ∈ E.heights
        rw [e5]
        exact E.mem_heights ha.1.1 hb.1.1 (p := p) (by rw [e1]; simp) (by simp [Env.pieceHeights])

theorem Grows.live (hK : E.Comparable) {y : K} (hH : y ∈ E.heights) {line : List Entry} (hon : ∀ e ∈ line, E.On y e.seg) {q q' : List (IEvent K)} (h : Grows E y line q q')
    (hq : Live E y q) : Live E y q' := by
  intro ev hev
  rcases h.found ev hev with h1 | ⟨a, ha, b, hb, h1, h2, h3⟩
  · exact hq ev h1
  · exact touchEvent_pending hK (hon a ha) (hon b hb) h1 h2 hH h3

theorem find_lo {y : K} (ps : List (Piece K)) : ∀ {lo : K} {p : Piece K}, Tiled lo ps → lo ≤ y → ps.find? (fun p => decide (y < p.hi)) = some p → p.lo ≤ y := by
  induction ps with
  | nil => intro lo p _ _ h; simp at h
  | cons q ps ih =>
    intro lo p ht hlo h
    rw [List.find?_cons] at h
    split at h
    · simp only [Option.some.injEq] at h
      subst h
      rw [ht.head.1]; exact hlo
    · rename_i hq
      simp only [decide_eq_false_iff_not, not_lt] at hq
      exact ih ht.tail hq h

theorem entryAt_mem {c : CurveOrder K} (h : WF c) {y : K} (hy : c.start ≤ y) {p : Piece K} (hp : c.entryAt y = some p) : p ∈ c.iter ∧ p.lo ≤ y ∧ y < p.hi := by
  unfold CurveOrder.entryAt at hp
  refine ⟨List.mem_of_find?_eq_some hp, find_lo _ h.2 hy hp, ?_⟩
  simpa using List.find?_some hp

/-! ## One intersection -/

section
variable {y : K} {line : List Entry}

theorem collectMoves_total (hK : E.Comparable) {left right : Nat} (hl : E.On y left) (hr : E.On y right) (hly : y < E.endY left) (hry : y < E.endY right)
    (hon : ∀ e ∈ line, E.On y e.seg) (hst : ∀ e ∈ line, e.willReallyExit = false → y < E.endY e.seg)
    (js : List Nat) (hjs : ∀ j ∈ js, j < line.length) : ∀ acc, ∃ r, collectMoves E y line left right js acc = some r := by
  induction js with
  | nil => intro acc; exact ⟨_, rfl⟩
  | cons j js ih =>
    intro acc
    have ih := ih fun i hi => hjs i (List.mem_cons_of_mem _ hi)
    have hj := hjs j (by simp)
    have hm := List.getElem_mem hj
    simp only [collectMoves]
    rw [List.getElem?_eq_getElem hj]
    dsimp only
    by_cases hw : line[j].willReallyExit = true
    · rw [if_pos hw]; exact ih _
    · rw [if_neg hw]
      have hjy := hst _ hm (by simpa using hw)
      obtain ⟨p, hp⟩ := entryAt_total (hK.wf _ _ y hl (hon _ hm)).2.2 (lt_min hly hjy)
      obtain ⟨q, hq⟩ := entryAt_total (hK.wf _ _ y (hon _ hm) hr).2.2 (lt_min hjy hry)
      rw [hp, hq]
      dsimp only
      split_ifs
      · exact ⟨_, rfl⟩
      · exact ih _
      · exact ih _

/-- A delayed event is still legitimate. -/
theorem collectMoves_pending (hK : E.Comparable) {ev : IEvent K} (hev : Legit E y ev) (hy : y = ev.y) (hon : ∀ e ∈ line, E.On y e.seg)
    (js : List Nat) : ∀ {acc : List Nat} {y' : K}, collectMoves E y line ev.left ev.right js acc = some (.inl y') → Legit E y ⟨y', ev.left, ev.right⟩ := by
  induction js with
  | nil => intro acc y' h; simp [collectMoves] at h
  | cons j js ih =>
    intro acc y' h
    simp only [collectMoves] at h
    split at h
    · simp at h
    rename_i e he
    split at h
    · exact ih h
    split at h
    · simp at h
    rename_i p hp
    split at h
    · rename_i hpo
      split at h
      · simp at h
      rename_i q hq
      split at h
      · rename_i hqo
        simp only [Option.some.injEq, Sum.inl.injEq] at h
        subst h
        have hl := hev.onL hy.le
        have hr := hev.onR hy.le
        have ho := hon e (List.mem_of_getElem? he)
        obtain ⟨u1, u2, u3⟩ := hK.wf _ _ y hl ho
        obtain ⟨v1, v2, v3⟩ := hK.wf _ _ y ho hr
        obtain ⟨p1, p2, p3⟩ := entryAt_mem u1 (by rw [u2]; exact max_le hl.2.1 ho.2.1) hp
        obtain ⟨q1, q2, q3⟩ := entryAt_mem v1 (by rw [v2]; exact max_le ho.2.1 hr.2.1) hq
        obtain ⟨hi, w1, w2, w3, w4⟩ := hev.why
        refine ⟨hev.left, hev.right, hev.startL, hev.startR, ⟨hi, ?_, w2, w3, w4⟩, ?_⟩
        case refine_2 =>
          show min p.hi q.hi ∈ E.heights
          rcases min_choice p.hi q.hi with h | h <;> rw [h]
          · exact E.mem_heights hl.1.1 ho.1.1 p1 (by simp [Env.pieceHeights])
          · exact E.mem_heights ho.1.1 hr.1.1 q1 (by simp [Env.pieceHeights])
        by_contra hcon
        rw [not_lt] at hcon
        have k1 := hK.left _ _ y hl ho p p1 hpo hi (p2.trans (hy.le.trans w1.le)) (hcon.trans (min_le_left _ _))
        have k2 := hK.left _ _ y ho hr q q1 hqo hi (q2.trans (hy.le.trans w1.le)) (hcon.trans (min_le_right _ _))
        exact absurd w4 (not_lt.2 (k1.trans k2).le)
      · exact ih h
    · exact ih h

theorem removeScan_total (hK : E.Comparable) (js : List Nat) (hj : js.Pairwise (· > ·)) :
    ∀ {line : List Entry} (_ : ∀ e ∈ line, E.On y e.seg) (_ : ∀ j ∈ js, j < line.length) (q : List (IEvent K)), ∃ r, removeScan E y js line q = some r := by
  induction js with
  | nil => intro line _ _ q; exact ⟨_, rfl⟩
  | cons j js ih =>
    intro line hon hjs q
    rw [List.pairwise_cons] at hj
    have hlt := hjs j (by simp)
    have hon' : ∀ e ∈ line.eraseIdx j, E.On y e.seg := fun e he => hon e (List.mem_of_mem_eraseIdx he)
    have hlen : (line.eraseIdx j).length = line.length - 1 := List.length_eraseIdx_of_lt hlt
    obtain ⟨q1, hq1⟩ := scanForRemoval_total hK hon' (i := j) (by omega) q
    obtain ⟨r, hr⟩ := ih hj.2 hon' (fun i hi => by have := hj.1 i hi; omega) q1
    simp only [removeScan]
    rw [List.getElem?_eq_getElem hlt, hq1]
    dsimp only
    rw [hr]
    exact ⟨_, rfl⟩

theorem insertAll_total (hK : E.Comparable) {pos : Nat} (es : List Entry) (hes : ∀ e ∈ es, E.On y e.seg) :
    ∀ {line : List Entry} (_ : ∀ e ∈ line, E.On y e.seg) (_ : pos ≤ line.length) (q : List (IEvent K)), ∃ r, insertAll E y pos es line q = some r := by
  induction es with
  | nil => intro line _ _ q; exact ⟨_, rfl⟩
  | cons e es ih =>
    intro line hon hp q
    obtain ⟨⟨line', q'⟩, hr⟩ := insertScan_total hK hon (hes e (by simp)) hp q
    obtain ⟨g1, g2, -⟩ := insertScan_spec hr
    dsimp only at g2
    simp only [insertAll]
    rw [hr]
    refine ih (fun f hf => hes f (List.mem_cons_of_mem _ hf)) ?_ ?_ q'
    · rw [g2]
      intro f hf
      rcases (List.mem_insertIdx hp).1 hf with rfl | hf
      · exact hes _ (by simp)
      · exact hon f hf
    · rw [g2, List.length_insertIdx_of_le_length hp]; omega

end

theorem eraseIdx_foldl_sub (js : List Nat) : ∀ (line : List Entry), ∀ e ∈ js.foldl List.eraseIdx line, e ∈ line := by
  induction js with
  | nil => intro line e he; exact he
  | cons j js ih => intro line e he; exact List.mem_of_mem_eraseIdx (ih _ e he)

theorem markOld_seg (line : List Entry) (a b : Nat) : (markOld line a b).map Entry.seg = line.map Entry.seg := by
  apply List.ext_getElem?
  intro i
  rw [List.getElem?_map, List.getElem?_map, markOld_get]
  cases line[i]? with
  | none => rfl
  | some e =>
    simp only [Option.map_some, Option.some.injEq]
    split_ifs
    · unfold Entry.setOld; split_ifs <;> rfl
    · rfl

theorem on_of_segs {y : K} {l l' : List Entry} (h : l'.map Entry.seg = l.map Entry.seg) (hon : ∀ e ∈ l, E.On y e.seg) : ∀ e ∈ l', E.On y e.seg := by
  intro e he
  have : e.seg ∈ l.map Entry.seg := by rw [← h]; exact List.mem_map_of_mem he
  obtain ⟨f, h1, h2⟩ := List.mem_map.1 this
  rw [← h2]; exact hon f h1

/-- No panic in `handle_intersection`. -/
theorem handleIntersection_total (hK : E.Comparable) {s : State K} {ev : IEvent K} (hev : Legit E s.y ev) (hy : s.y = ev.y)
    (hon : ∀ e ∈ s.line, E.On s.y e.seg) (hst : ∀ e ∈ s.line, e.willReallyExit = false → s.y < E.endY e.seg)
    (hl : ev.left ∈ lineIds s.line) (hr : ev.right ∈ lineIds s.line) (hq : Live E s.y s.ints) :
    ∃ s', handleIntersection E s ev.left ev.right = some s' ∧ Live E s.y s'.ints := by
  obtain ⟨l, hl⟩ := position_total hl
  obtain ⟨r, hr⟩ := position_total hr
  obtain ⟨el, el1, -⟩ := position_some hl
  obtain ⟨er, er1, -⟩ := position_some hr
  have hltl := (List.getElem?_eq_some_iff.1 el1).1
  have hltr := (List.getElem?_eq_some_iff.1 er1).1
  obtain ⟨hi, w1, w2, w3, w4⟩ := id hev.why
  have hH : s.y ∈ E.heights := by rw [hy]; exact hev.height
  unfold handleIntersection
  rw [hl, hr]
  dsimp only
  by_cases hlr : l < r
  · rw [if_pos hlr]
    obtain ⟨res, hres⟩ := collectMoves_total hK (hev.onL hy.le) (hev.onR hy.le) (by rw [hy]; exact lt_of_lt_of_le w1 w2) (by rw [hy]; exact lt_of_lt_of_le w1 w3)
      hon hst (List.range' (l + 1) (r - l - 1)) (by intro j hj; rw [List.mem_range'_1] at hj; omega) [l]
    rw [hres]
    rcases res with y' | moves
    · dsimp only
      refine ⟨_, rfl, ?_⟩
      intro e he
      rcases (mem_pushInt _ _ e).1 he with rfl | he
      · exact collectMoves_pending hK hev hy hon _ hres
      · exact hq e he
    · dsimp only
      obtain ⟨sub, m1, m2, -⟩ := collectMoves_spec _ hres
      have hmv : moves = l :: sub := by simpa using m1
      subst hmv
      obtain ⟨s1, s2⟩ := collect_sorted m2
      have hb : ∀ j ∈ l :: sub, l ≤ j ∧ j < r := fun j hj => ⟨(s2 j hj).1, (s2 j hj).2 hlr⟩
      have hon1 : ∀ e ∈ markOld s.line l (r + 1), E.On s.y e.seg := on_of_segs (markOld_seg ..) hon
      have hlen1 : (markOld s.line l (r + 1)).length = s.line.length := markOld_length ..
      obtain ⟨⟨removed, line2, q2⟩, hrem⟩ := removeScan_total hK (l :: sub).reverse (List.pairwise_reverse.2 s1) hon1 (by
        intro j hj
        have := hb j (List.mem_reverse.1 hj)
        omega) s.ints
      rw [hrem]
      dsimp only
      obtain ⟨g1, g2, g3, g4⟩ := removeScan_spec _ (List.pairwise_reverse.2 s1) hrem
      dsimp only at g1 g2 g3
      have hon2 : ∀ e ∈ line2, E.On s.y e.seg := by
        rw [g2]
        exact fun e he => hon1 e (eraseIdx_foldl_sub _ _ e he)
      have hon3 : ∀ e ∈ removed, E.On s.y e.seg := by
        rw [g1]
        intro e he
        obtain ⟨j, -, h2⟩ := List.mem_filterMap.1 he
        exact hon1 e (List.mem_of_getElem? h2)
      have hlen2 : line2.length + (l :: sub).length = s.line.length := by
        have key : ∀ (js : List Nat), js.Pairwise (· > ·) → ∀ (line : List Entry), (∀ j ∈ js, j < line.length) →
            (js.foldl List.eraseIdx line).length + js.length = line.length := by
          intro js
          induction js with
          | nil => intro _ line _; rfl
          | cons j js ih =>
            intro hp line hj
            rw [List.pairwise_cons] at hp
            have h1 := hj j (by simp)
            have h2 : (line.eraseIdx j).length = line.length - 1 := List.length_eraseIdx_of_lt h1
            have := ih hp.2 (line.eraseIdx j) (fun i hi => by have := hp.1 i hi; omega)
            rw [List.foldl_cons, List.length_cons]
            omega
        rw [g2, ← hlen1, ← key _ (List.pairwise_reverse.2 s1) _ g4, List.length_reverse]
      have hmle : (l :: sub).length ≤ r + 1 := by
        have : (l :: sub).length ≤ (List.range (r + 1)).length := by
          refine (List.subperm_of_subset (s1.imp (fun h => Nat.ne_of_lt h)) ?_).length_le
          intro j hj
          rw [List.mem_range]
          have := hb j hj
          omega
        simpa using this
      obtain ⟨res, hres⟩ := insertAll_total hK removed hon3 hon2 (pos := r + 1 - (l :: sub).length) (by omega) q2
      obtain ⟨k1, k2⟩ := insertAll_spec removed (by omega) hres
      rw [hres]
      refine ⟨_, rfl, ?_⟩
      refine k2.live hK hH ?_ (g3.live hK hH hon1 hq)
      rw [k1]
      intro e he
      simp only [List.mem_append, List.mem_reverse] at he
      rcases he with (he | he) | he
      · exact hon2 e (List.mem_of_mem_take he)
      · exact hon3 e he
      · exact hon2 e (List.mem_of_mem_drop he)
  · rw [if_neg hlr]
    obtain ⟨q1, h1⟩ := scanRight_total hK hon hltr s.ints
    obtain ⟨q2, h2⟩ := scanLeft_total hK hon hltl q1
    rw [h1, Option.bind_some, h2]
    exact ⟨_, rfl, (scanLeft_grows h2).live hK hH hon ((scanRight_grows h1).live hK hH hon hq)⟩

/-! ## The loop -/

theorem Ready.on {y : K} {S0 : List Nat} {w : State K} (h : Ready E y S0 w) (hs : E.Sched) : ∀ e ∈ w.line, E.On y e.seg := by
  intro e he
  obtain ⟨h1, h2, h3, h4⟩ := (h.mem e.seg).1 (mem_lineIds.2 ⟨e, he, by simp [Entry.ids]⟩)
  exact On.of_mem hs h1 h2 h3 h4

theorem Ready.stays {y : K} {S0 : List Nat} {w : State K} (h : Ready E y S0 w) : ∀ e ∈ w.line, e.willReallyExit = false → y < E.endY e.seg := by
  intro e h1 h2
  have hid : e.seg ∈ lineIds w.line := mem_lineIds.2 ⟨e, h1, by simp [Entry.ids]⟩
  have hle := ((h.mem e.seg).1 hid).2.2.2
  refine lt_of_le_of_ne hle ?_
  intro heq
  obtain ⟨f, hf, hor⟩ := h.gone e.seg hid heq.symm
  rcases hor with ⟨a, b, c⟩ | c
  · have : f = e := ids_unique h.nodup hf h1 (x := e.seg) (by simp [Entry.ids, a]) (by simp [Entry.ids])
    subst this
    simp [Entry.willReallyExit, b, c] at h2
  · have : f = e := ids_unique h.nodup hf h1 (x := e.seg) (by simp [Entry.ids, c]) (by simp [Entry.ids])
    subst this
    have hn := ids_nodup h.nodup hf
    simp [Entry.ids, c] at hn

/-- The line after some reordering. -/
structure Shuffled (E : Env K) (y : K) (line : List Entry) : Prop where
  on : ∀ e ∈ line, E.On y e.seg
  stays : ∀ e ∈ line, e.willReallyExit = false → y < E.endY e.seg
  ids : ∀ x, E.On y x → x ∈ lineIds line

theorem Ready.shuffled {y : K} {S0 : List Nat} {w : State K} (h : Ready E y S0 w) (hs : E.Sched) {line : List Entry} {snp : List Nat} (hm : MoveInv w.line line snp) :
    Shuffled E y line := by
  have hc := hm.core_perm
  have hcore : ∀ e ∈ line, ∃ f ∈ w.line, f.core = e.core := by
    intro e he
    have : e.core ∈ w.line.map Entry.core := hc.mem_iff.1 (List.mem_map_of_mem he)
    obtain ⟨f, h1, h2⟩ := List.mem_map.1 this
    exact ⟨f, h1, h2⟩
  refine ⟨?_, ?_, ?_⟩
  · intro e he
    obtain ⟨f, h1, h2⟩ := hcore e he
    have := congrArg Entry.seg h2
    simp only [Entry.core] at this
    rw [← this]; exact h.on hs f h1
  · intro e he hw
    obtain ⟨f, h1, h2⟩ := hcore e he
    rcases e with ⟨a1, a2, a3, a4, a5, a6⟩
    rcases f with ⟨b1, b2, b3, b4, b5, b6⟩
    simp only [Entry.core, Entry.mk.injEq] at h2
    obtain ⟨rfl, rfl, rfl, _, _, rfl⟩ := h2
    exact h.stays ⟨b1, b2, b3, b4, b5, b6⟩ h1 hw
  · intro x hx
    rw [← lineIds_core line]
    have : (line.map Entry.core).flatMap Entry.ids = lineIds (line.map Entry.core) := rfl
    have hp : (lineIds (line.map Entry.core)).Perm (lineIds (w.line.map Entry.core)) := hc.flatMap_right _
    rw [hp.mem_iff, lineIds_core, h.mem]
    exact ⟨hx.1.1, by simp [Env.isHorizontal, hx.1.2.ne], hx.2⟩

/-- The loop has handled `n` intersections at the height of the line and is still going. -/
inductive Busy (E : Env K) : Nat → State K → Prop
  | zero (s : State K) : Busy E 0 s
  | succ (n : Nat) (s s' : State K) (ev : IEvent K) (rest : List (IEvent K)) : s.ints = ev :: rest → ev.y = s.y →
      handleIntersection E { s with ints := rest } ev.left ev.right = some s' → Busy E n s' → Busy E (n + 1) s

/-- The loop over the intersections does not panic. -/
theorem intLoop_total (hs : E.Sched) (hK : E.Comparable) {y : K} {S0 : List Nat} {w : State K} (hw : Ready E y S0 w) (fuel : Nat) :
    ∀ {s : State K}, s.y = y → MoveInv w.line s.line s.snp → QInv y s.ints → Live E y s.ints →
      (∃ s', intLoop E fuel s = some s' ∧ Live E y s'.ints ∧ MoveInv w.line s'.line s'.snp) ∨ Busy E fuel s := by
  induction fuel with
  | zero => intro s _ _ _ _; exact .inr (.zero s)
  | succ fuel ih =>
    intro s hy hm hq hlive
    have hS := hw.shuffled hs hm
    cases hi : s.ints with
    | nil =>
      left
      refine ⟨s, by simp only [intLoop, hi], ?_, hm⟩
      exact hlive
    | cons ev rest =>
      by_cases he : ev.y = s.y
      · have hp := hlive ev (by rw [hi]; simp)
        obtain ⟨s1, h1, h2⟩ := handleIntersection_total hK (s := { s with ints := rest }) (ev := ev) (by show Legit E s.y ev; rw [hy]; exact hp) he.symm
          (by show ∀ e ∈ s.line, E.On s.y e.seg; rw [hy]; exact hS.on) (by show ∀ e ∈ s.line, _ → s.y < _; rw [hy]; exact hS.stays)
          (hS.ids _ (hp.onL (by rw [he, hy]))) (hS.ids _ (hp.onR (by rw [he, hy])))
          (by show Live E s.y rest; rw [hy]; exact fun e h => hlive e (by rw [hi]; simp [h]))
        obtain ⟨g1, g2, g3, -⟩ := handleIntersection_spec h1
        dsimp only at g2 g3 h2
        have hm1 : MoveInv w.line s1.line s1.snp := g1.moveInv (M := w.line) hm
        have hq1 : QInv y s1.ints := by
          rw [← hy]
          refine g2 ?_
          rw [hy]
          rw [hi] at hq
          exact ⟨(List.pairwise_cons.1 hq.1).2, fun x hx => hq.2 x (by simp [hx])⟩
        rcases ih (g3.trans hy) hm1 hq1 (by rw [hy] at h2; exact h2) with ⟨s', k1, k2⟩ | hbusy
        · left
          refine ⟨s', ?_, k2⟩
          simp only [intLoop, hi]
          rw [if_pos he, h1]
          exact k1
        · exact .inr (.succ fuel s s1 ev rest hi he h1 hbusy)
      · left
        refine ⟨s, ?_, hlive, hm⟩
        simp only [intLoop, hi]
        rw [if_neg he]

end Verif.Sweep
