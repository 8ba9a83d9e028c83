import Verif.Scan.Build
import Verif.Topo.Eval

/-!
# Properties of the scan-line orders (C38, C57, C58)

The executions `Steps init f` are those of the sweep together with the construction of the topology: any number of sweep
lines, with any number of ranges on each, as in `Step` (Sweep.lean).
-/

namespace Verif.Scan
open Verif.Topo Verif.Range Verif.Merge
set_option linter.unusedSectionVars false

variable {K : Type} [LinearOrder K] {W : Type} [AddCommGroup W] [DecidableEq W]

/-! ## C38 -/

/-- C38: the lookup returns the value of the last record at or before `y`. -/
theorem C38_lookup (recs : List (Rec K)) (hs : recs.Pairwise fun a b => a.1 < b.1) (y : K) :
    (∀ r ∈ recs, r.1 ≤ y → (∀ r' ∈ recs, r'.1 ≤ y → r'.1 ≤ r.1) → neighborAfter recs y = r.2) ∧
    ((∀ r ∈ recs, y < r.1) → neighborAfter recs y = none) :=
  ⟨fun _ h1 h2 h3 => neighborAfter_eq hs h1 h2 h3, fun h => neighborAfter_none h⟩

/-- C38: the iterator yields the records in order; each interval starts where the previous one ends, the last one is
unbounded, and the intervals are non-empty and increasing. -/
theorem C38_tiles (recs : List (Rec K)) (hs : recs.Pairwise fun a b => a.1 < b.1) :
    (iter recs).map (fun p => (p.1, p.2.2)) = recs ∧
    (∀ p ∈ iter recs, (p.1 : WithTop K) < p.2.1) ∧
    (iter recs).IsChain (fun p q => p.2.1 = (q.1 : WithTop K)) ∧
    ∀ p, (iter recs).getLast? = some p → p.2.1 = ⊤ := by
  induction recs with
  | nil => simp [iter_nil]
  | cons a l ih =>
    rw [List.pairwise_cons] at hs
    cases l with
    | nil => simp [iter_one]
    | cons b l =>
      obtain ⟨h1, h2, h3, h4⟩ := ih hs.2
      rw [iter_cons]
      obtain ⟨e, q, hq, he⟩ : ∃ e q, iter (b :: l) = e :: q ∧ e.1 = b.1 := by
        cases l with
        | nil => exact ⟨_, _, iter_one b, rfl⟩
        | cons c l => exact ⟨_, _, iter_cons b c l, rfl⟩
      refine ⟨by rw [List.map_cons, h1], ?_, ?_, ?_⟩
      · intro p hp
        rcases List.mem_cons.1 hp with rfl | hp
        · exact WithTop.coe_lt_coe.2 (hs.1 b (by simp))
        · exact h2 p hp
      · rw [hq] at h3 ⊢
        rw [List.isChain_cons_cons]
        exact ⟨by simp [he], h3⟩
      · intro p hp
        rw [hq, List.getLast?_cons_cons, ← hq] at hp
        exact h4 p hp

/-- C38: the neighbour at `y` is the one of the interval containing `y`. -/
theorem C38_interval (recs : List (Rec K)) (hs : recs.Pairwise fun a b => a.1 < b.1) (y : K) (p : K × WithTop K × Option Nat)
    (hp : p ∈ iter recs) (h1 : p.1 ≤ y) (h2 : (y : WithTop K) < p.2.1) : neighborAfter recs y = p.2.2 := by
  induction recs with
  | nil => simp [iter_nil] at hp
  | cons a l ih =>
    rw [List.pairwise_cons] at hs
    cases l with
    | nil =>
      rw [iter_one] at hp
      simp only [List.mem_singleton] at hp
      subst hp
      simp only at h1
      simp [neighborAfter, iter_one, h1]
    | cons b l =>
      rw [iter_cons] at hp
      rcases List.mem_cons.1 hp with rfl | hp
      · refine neighborAfter_eq (r := a) (by rw [List.pairwise_cons]; exact hs) (by simp) h1 ?_
        intro r hr hry
        rcases List.mem_cons.1 hr with rfl | hr
        · exact le_refl _
        · exfalso
          have hb : b.1 ≤ r.1 := by
            rcases List.mem_cons.1 hr with rfl | hr
            · exact le_refl _
            · exact le_of_lt ((List.pairwise_cons.1 hs.2).1 r hr)
          have : y < b.1 := WithTop.coe_lt_coe.1 h2
          exact absurd (le_trans hb hry) (not_le.2 this)
      · rw [← ih hs.2 hp]
        have hmem : (p.1, p.2.2) ∈ b :: l := by
          have := (C38_tiles (b :: l) hs.2).1
          rw [← this]; exact List.mem_map.2 ⟨p, hp, rfl⟩
        have hby : b.1 ≤ p.1 := by
          rcases List.mem_cons.1 hmem with h | h
          · rw [← h]
          · exact le_of_lt ((List.pairwise_cons.1 hs.2).1 _ h)
        have hab : a.1 ≤ y := le_trans (le_of_lt (hs.1 b (by simp))) (le_trans hby h1)
        unfold neighborAfter
        rw [iter_cons, List.takeWhile_cons_of_pos (by simpa using hab), List.find?_cons_of_neg (by simpa using le_trans hby h1)]

/-! ## What remains of a state at the end -/

section
variable {single : Nat → Bool → W} {orient : Nat → Bool}

/-- What later steps keep: they only add records, starts and ends at their own heights. -/
structure Keep (z : K) (t t' : Topo K W) : Prop where
  n_le : t.n ≤ t'.n
  w : ∀ o y v, y ≤ z → (InW t' o y v ↔ InW t o y v)
  e : ∀ o y v, y ≤ z → (InE t' o y v ↔ InE t o y v)
  s : ∀ o y, y ≤ z → (Sv t' o y ↔ Sv t o y)
  c : ∀ o y, y ≤ z → (Cv t' o y ↔ Cv t o y)
  wind : ∀ i < t.n, t'.winding i = t.winding i
  orig : ∀ i < t.n, t'.origSeg i = t.origSeg i

theorem Step.keep (hsingle : ∀ s b, single s (!b) = - single s b) {u v : SState K W} (hst : Step single orient u v)
    (hr : Run single orient u.hist u.line u.t) {z : K} (hz : (z : WithBot K) < v.yl) : Keep z u.t v.t := by
  obtain ⟨LA, LO, LB, N, y, h1, h2, h3, h4, h5, R⟩ := hst.records hsingle hr
  rw [h3] at hz
  have hz : z < y := WithBot.coe_lt_coe.1 hz
  constructor
  · exact R.hn
  · intro o y' v hy
    rw [R.hW]
    constructor
    · rintro (h | ⟨rfl, _⟩)
      · exact h
      · exact absurd hy (not_le.2 hz)
    · exact .inl
  · intro o y' v hy
    rw [R.hE]
    constructor
    · rintro (h | ⟨rfl, _⟩)
      · exact h
      · exact absurd hy (not_le.2 hz)
    · exact .inl
  · intro o y' hy
    rw [R.hS]
    constructor
    · rintro (h | ⟨_, rfl⟩)
      · exact h
      · exact absurd hy (not_le.2 hz)
    · exact .inl
  · intro o y' hy
    rw [R.hC]
    constructor
    · rintro (h | ⟨_, rfl⟩)
      · exact h
      · exact absurd hy (not_le.2 hz)
    · exact .inl
  · exact R.windOld
  · exact R.origOld

theorem Keep.refl (z : K) (t : Topo K W) : Keep z t t :=
  ⟨le_refl _, fun _ _ _ _ => Iff.rfl, fun _ _ _ _ => Iff.rfl, fun _ _ _ => Iff.rfl, fun _ _ _ => Iff.rfl, fun _ _ => rfl, fun _ _ => rfl⟩

theorem Keep.trans {z : K} {t t' t'' : Topo K W} (h : Keep z t t') (h' : Keep z t' t'') : Keep z t t'' :=
  ⟨le_trans h.n_le h'.n_le, fun o y v hy => (h'.w o y v hy).trans (h.w o y v hy), fun o y v hy => (h'.e o y v hy).trans (h.e o y v hy),
    fun o y hy => (h'.s o y hy).trans (h.s o y hy), fun o y hy => (h'.c o y hy).trans (h.c o y hy),
    fun i hi => (h'.wind i (lt_of_lt_of_le hi h.n_le)).trans (h.wind i hi), fun i hi => (h'.orig i (lt_of_lt_of_le hi h.n_le)).trans (h.orig i hi)⟩

theorem Steps.keep (hsingle : ∀ s b, single s (!b) = - single s b) {s f : SState K W} (hs : Steps single orient SState.init s)
    (h : Steps single orient s f) {z : K} (hz : (z : WithBot K) < s.yl) : Keep z s.t f.t := by
  induction h with
  | refl => exact Keep.refl _ _
  | tail u v hu hst ih =>
    have hlt : (z : WithBot K) < v.yl := lt_of_lt_of_le hz (le_trans hu.yl_le hst.yl_le)
    exact ih.trans (hst.keep hsingle (hs.trans hu).run hlt)

/-- Every height is left at some moment of the sweep. -/
theorem Steps.split (z : K) {f : SState K W} (h : Steps single orient SState.init f) :
    f.yl ≤ z ∨ ∃ s s', Steps single orient SState.init s ∧ s.yl ≤ z ∧ Step single orient s s' ∧ (z : WithBot K) < s'.yl ∧
      Steps single orient s' f := by
  generalize h0 : (SState.init : SState K W) = s0 at h ⊢
  induction h with
  | refl => subst h0; exact .inl bot_le
  | tail u v hu hst ih =>
    subst h0
    rcases ih with h | ⟨s, s', h1, h2, h3, h4, h5⟩
    · rcases lt_or_ge (z : WithBot K) v.yl with h' | h'
      · exact .inr ⟨u, v, hu, h, hst, h', .refl _⟩
      · exact .inl h'
    · exact .inr ⟨s, s', h1, h2, h3, h4, .tail _ _ _ h5 hst⟩

theorem cur_lookup {recs : List (Rec K)} {R : K → Option Nat → Prop} {v : Option Nat} {z : K} (hs : recs.Pairwise fun a b => a.1 < b.1)
    (hR : ∀ y v, y ≤ z → ((y, v) ∈ recs ↔ R y v)) (hle : ∀ y v, R y v → y ≤ z) (hc : Cur R v) : neighborAfter recs z = v := by
  rcases hc with ⟨y, h1, h2⟩ | ⟨rfl, h2⟩
  · have hyz := hle y v h1
    refine neighborAfter_eq (r := (y, v)) hs ((hR y v hyz).2 h1) hyz ?_
    rintro ⟨y', v'⟩ hm hy'
    exact h2 y' v' ((hR y' v' hy').1 hm)
  · apply neighborAfter_none
    rintro ⟨y', v'⟩ hm
    by_contra hn
    exact h2 y' v' ((hR y' v' (not_lt.1 hn)).1 hm)

/-! ## C57 -/

/-- C57: the scan-line orders can be built after any complete sweep, with all assertions; and for every moment `s` of the sweep
at which a height `z` is left, the west (east) neighbour after `z` of the output segment of an entry of the sweep line is the output
segment of the entry to its left (right). -/
theorem C57_sweep_line (hsingle : ∀ s b, single s (!b) = - single s b) {f : SState K W} (hf : Steps single orient SState.init f)
    (hend : f.line = []) :
    ∃ m, buildScanLineOrders f.t = some m ∧
      ∀ (s s' : SState K W) (z : K), Steps single orient SState.init s → s.yl ≤ z → Step single orient s s' →
        (z : WithBot K) < s'.yl → Steps single orient s' f →
        ∀ l1 a l2, s.line = l1 ++ a :: l2 →
          neighborAfter (m.west (out s.t a)) z = l1.getLast?.map (out s.t) ∧
          neighborAfter (m.east (out s.t a)) z = l2.head?.map (out s.t) := by
  obtain ⟨m, h1, h2, h3, h4, h5⟩ := build_spec hsingle hf hend
  refine ⟨m, h1, ?_⟩
  intro s s' z hs hz hst hz' hsf l1 a l2 hl
  have k : Keep z s.t f.t := (hst.keep hsingle hs.run hz').trans (Steps.keep hsingle (.tail _ _ _ hs hst) hsf hz')
  have ai := hs.ainv hsingle
  have hidx : (s.line.map (out s.t))[l1.length]? = some (out s.t a) := by rw [hl]; simp
  have hw : prev (s.line.map (out s.t)) l1.length = l1.getLast?.map (out s.t) := by
    have : s.line.map (out s.t) = l1.map (out s.t) ++ (a :: l2).map (out s.t) := by rw [hl]; simp
    rw [this, show l1.length = (l1.map (out s.t)).length by simp, prev_append, List.getLast?_map]
  have he : (s.line.map (out s.t))[l1.length + 1]? = l2.head?.map (out s.t) := by
    have : s.line.map (out s.t) = (l1.map (out s.t) ++ [out s.t a]) ++ l2.map (out s.t) := by rw [hl]; simp
    rw [this, List.getElem?_append_right (by simp), ← List.head?_map, List.head?_eq_getElem?]; simp
  constructor
  · rw [← hw]
    refine cur_lookup (h2 _) (fun y v hy => (h4 _ _ _).trans (k.w _ _ _ hy)) ?_ (ai.wCur _ _ hidx)
    intro y v hv
    exact WithBot.coe_le_coe.1 (le_trans (ai.wLe _ _ _ hv) hz)
  · rw [← he]
    refine cur_lookup (h3 _) (fun y v hy => (h5 _ _ _).trans (k.e _ _ _ hy)) ?_ (ai.eCur _ _ hidx)
    intro y v hv
    exact WithBot.coe_le_coe.1 (le_trans (ai.eLe _ _ _ hv) hz)

/-- Output segment `o` of `t` crosses the height just after `z`. -/
def AliveAt (t : Topo K W) (o : Nat) (z : K) : Prop := o < t.n ∧ ∃ a b, Runs t o a b ∧ a.2 ≤ z ∧ z < b.2

theorem alive_iff (f : SState K W) (o : Nat) (z : K) : AliveAt f.t o z ↔ ∃ ys ye, Sv f.t o ys ∧ Cv f.t o ye ∧ ys ≤ z ∧ z < ye := by
  constructor
  · rintro ⟨ho, a, b, hr, h1, h2⟩
    have hnh : ¬ Horiz f.t o := by
      rintro ⟨a', b', hr', he⟩
      obtain ⟨p, q, p1, q1, p2, q2⟩ := hr
      obtain ⟨rfl, rfl⟩ := runs_iff p1 q1 p2 q2 hr'
      rw [he] at h1
      exact absurd h1 (not_le.2 h2)
    obtain ⟨p, q, p1, q1, p2, q2⟩ := hr
    exact ⟨a.2, b.2, ⟨ho, hnh, p, a.1, p1, p2⟩, ⟨ho, hnh, q, b.1, q1, q2⟩, h1, h2⟩
  · rintro ⟨ys, ye, ⟨ho, _, p, x, p1, p2⟩, ⟨_, _, q, x', q1, q2⟩, h1, h2⟩
    exact ⟨ho, _, _, ⟨p, q, p1, q1, p2, q2⟩, h1, h2⟩

/-- The order at a height: the state in which the height is left tells which output segments cross it. -/
theorem order_at (hsingle : ∀ s b, single s (!b) = - single s b) {f : SState K W} (hf : Steps single orient SState.init f)
    (hend : f.line = []) {m : Maps K} (h2 : ∀ o, (m.west o).Pairwise fun a b => a.1 < b.1) (h3 : ∀ o, (m.east o).Pairwise fun a b => a.1 < b.1)
    (h4 : ∀ o y v, (y, v) ∈ m.west o ↔ InW f.t o y v) (h5 : ∀ o y v, (y, v) ∈ m.east o ↔ InE f.t o y v) {s : SState K W} {z : K}
    (hs : Steps single orient SState.init s) (hz : s.yl ≤ z) (k : Keep z s.t f.t) :
    (s.line.map (out s.t)).Nodup ∧ (∀ o, o ∈ s.line.map (out s.t) ↔ AliveAt f.t o z) ∧
        (∀ l1 o l2, s.line.map (out s.t) = l1 ++ o :: l2 → neighborAfter (m.west o) z = l1.getLast? ∧ neighborAfter (m.east o) z = l2.head?) ∧
        (∀ l1 o l2, s.line.map (out s.t) = l1 ++ o :: l2 →
          (f.t.winding o).cw = (match l1.getLast? with | none => 0 | some w => (f.t.winding w).ccw) ∧
          (l2 = [] → (f.t.winding o).ccw = 0)) := by
  have hafter : ∀ o ∈ s.line.map (out s.t), ∃ ye, Cv f.t o ye := by
    intro o ho
    obtain ⟨ys, hys⟩ := (hs.ainv hsingle).sIn o ho
    have hyz : ys ≤ z := WithBot.coe_le_coe.1 (le_trans ((hs.ainv hsingle).sLe _ _ hys) hz)
    have := (hf.extra hsingle).ended o ys ((k.s _ _ hyz).2 hys)
    rw [hend] at this
    rcases this with h | ⟨ye, h, _⟩
    · simp at h
    · exact ⟨ye, h⟩
  have ai := hs.ainv hsingle
  refine ⟨ai.nodup, ?_, ?_, ?_⟩
  · intro o
    rw [alive_iff]
    constructor
    · intro ho
      obtain ⟨ys, hys⟩ := ai.sIn o ho
      obtain ⟨ye, hye⟩ := hafter o ho
      have hyz : ys ≤ z := WithBot.coe_le_coe.1 (le_trans (ai.sLe _ _ hys) hz)
      refine ⟨ys, ye, (k.s _ _ hyz).2 hys, hye, hyz, ?_⟩
      by_contra hn
      exact ai.cNot o ho ye ((k.c _ _ (not_lt.1 hn)).1 hye)
    · rintro ⟨ys, ye, c1, c2, c3, c4⟩
      rcases (hs.extra hsingle).ended o ys ((k.s _ _ c3).1 c1) with h | ⟨ye', h, hle⟩
      · exact h
      · exfalso
        have hle : ye' ≤ z := WithBot.coe_le_coe.1 (le_trans hle hz)
        have h' := (k.c _ _ hle).2 h
        obtain ⟨_, _, p, x, p1, p2⟩ := h'
        obtain ⟨_, _, q, x', q1, q2⟩ := c2
        rw [p1] at q1
        have : p = q := by simpa using q1
        subst this
        rw [p2] at q2
        simp at q2
        rw [← q2.2] at c4
        exact absurd hle (not_le.2 c4)
  · intro l1 o l2 hl
    have hidx : (s.line.map (out s.t))[l1.length]? = some o := by rw [hl]; simp
    have hw : prev (s.line.map (out s.t)) l1.length = l1.getLast? := by rw [hl, prev_append]
    have he : (s.line.map (out s.t))[l1.length + 1]? = l2.head? := by
      have : l1 ++ o :: l2 = (l1 ++ [o]) ++ l2 := by simp
      rw [hl, this, List.getElem?_append_right (by simp), List.head?_eq_getElem?]; simp
    constructor
    · rw [← hw]
      refine cur_lookup (h2 _) (fun y v hy => (h4 _ _ _).trans (k.w _ _ _ hy)) ?_ (ai.wCur _ _ hidx)
      intro y v hv
      exact WithBot.coe_le_coe.1 (le_trans (ai.wLe _ _ _ hv) hz)
    · rw [← he]
      refine cur_lookup (h3 _) (fun y v hy => (h5 _ _ _).trans (k.e _ _ _ hy)) ?_ (ai.eCur _ _ hidx)
      intro y v hv
      exact WithBot.coe_le_coe.1 (le_trans (ai.eLe _ _ _ hv) hz)
  · intro l1 o l2 hl
    have wk := (hs.run.inv hsingle).walk
    have e : (s.line.map fun a => (s.t.openSegs a).headD 0) = s.line.map (out s.t) := rfl
    rw [e, hl] at wk
    have hlt : ∀ i ∈ l1 ++ o :: l2, i < s.t.n := by rw [← hl]; exact ai.lt
    obtain ⟨u, w1, w2⟩ := wk.split
    rw [k.wind o (hlt o (by simp))]
    constructor
    · rw [w2.1]
      rcases List.eq_nil_or_concat l1 with rfl | ⟨l1', w, rfl⟩
      · exact w1.symm
      · rw [List.concat_eq_append] at w1 hlt ⊢
        simp only [List.getLast?_append, List.getLast?_singleton, Option.some_or]
        rw [k.wind w (hlt w (by simp))]
        obtain ⟨u', _, w3⟩ := w1.split
        exact w3.2.symm
    · rintro rfl
      exact w2.2

/-- C57: at every height `z` the output segments crossing it have a west-to-east order `L` in which neighbours are exactly the
ones that `west_neighbor_after` and `east_neighbor_after` report; the winding numbers on this line fit together, starting and ending
with zero. -/
theorem C57_order (hsingle : ∀ s b, single s (!b) = - single s b) {f : SState K W} (hf : Steps single orient SState.init f)
    (hend : f.line = []) :
    ∃ m, buildScanLineOrders f.t = some m ∧
      ∀ z : K, ∃ L : List Nat, L.Nodup ∧ (∀ o, o ∈ L ↔ AliveAt f.t o z) ∧
        (∀ l1 o l2, L = l1 ++ o :: l2 → neighborAfter (m.west o) z = l1.getLast? ∧ neighborAfter (m.east o) z = l2.head?) ∧
        (∀ l1 o l2, L = l1 ++ o :: l2 →
          (f.t.winding o).cw = (match l1.getLast? with | none => 0 | some w => (f.t.winding w).ccw) ∧
          (l2 = [] → (f.t.winding o).ccw = 0)) := by
  obtain ⟨m, h1, h2, h3, h4, h5⟩ := build_spec hsingle hf hend
  refine ⟨m, h1, ?_⟩
  intro z
  rcases hf.split z with h | ⟨s, s', a1, a2, a3, a4, a5⟩
  · exact ⟨_, order_at hsingle hf hend h2 h3 h4 h5 hf h (Keep.refl _ _)⟩
  · exact ⟨_, order_at hsingle hf hend h2 h3 h4 h5 a1 a2 ((a3.keep hsingle a1.run a4).trans (Steps.keep hsingle (.tail _ _ _ a1 a3) a5 a4))⟩

/-- C57: merging coincident output segments does not change the orders. -/
theorem C57_merged (hsingle : ∀ s b, single s (!b) = - single s b) {hist : List (K × OutputEvent K)} {t t' : Topo K W}
    (hr : Run single orient hist [] t) (close : Nat → Nat → K → K → Bool) (hm : mergeCoincident close t = some t') :
    buildScanLineOrders t' = buildScanLineOrders t := by
  obtain ⟨L, G, hR⟩ := geo_of hsingle hr
  obtain ⟨t'', h1, s, r⟩ := mergeLoop_safe (close := close) (List.range t.n) t G hR (by simp)
  have : t' = t'' := by
    have h1 : mergeCoincident close t = some t'' := h1
    rw [hm] at h1; simpa using h1
  subst this
  have hpt : ∀ h, pointOf t' h = pointOf t h := by intro h; unfold pointOf; rw [s.pointIdx, s.points]
  have hh : ∀ i, isHorizontal t' i = isHorizontal t i := by intro i; unfold isHorizontal; rw [hpt, hpt]
  have l1 : ∀ l m, loop1 t' l m = loop1 t l m := by
    intro l
    induction l with
    | nil => intro m; rfl
    | cons i l ih => intro m; simp only [loop1, hh, hpt, s.scanWest, ih]
  have l2 : ∀ l m, loop2 t' l m = loop2 t l m := by
    intro l
    induction l with
    | nil => intro m; rfl
    | cons i l ih => intro m; simp only [loop2, hpt, s.scanEast, ih]
  have l3 : ∀ l m, loop3 t' l m = loop3 t l m := by
    intro l
    induction l with
    | nil => intro m; rfl
    | cons i l ih => intro m; simp only [loop3, hh, hpt, s.scanWest, ih]
  unfold buildScanLineOrders
  simp only [l1, l2, l3, s.n, s.scanAfter]

/-! ## C58 -/

/-- C58: the heights of the records of each output segment are strictly increasing; a record at height `y` is made for an output segment
that crosses the height just after `y`, and the neighbour it names crosses it, too (`check_invariants` of `ScanLineOrder`). -/
theorem C58_records (hsingle : ∀ s b, single s (!b) = - single s b) {f : SState K W} (hf : Steps single orient SState.init f)
    (hend : f.line = []) :
    ∃ m, buildScanLineOrders f.t = some m ∧ ∀ o,
      ((m.west o).Pairwise fun a b => a.1 < b.1) ∧ ((m.east o).Pairwise fun a b => a.1 < b.1) ∧
      ∀ y v, (y, v) ∈ m.west o ∨ (y, v) ∈ m.east o → AliveAt f.t o y ∧ ∀ w, v = some w → AliveAt f.t w y := by
  obtain ⟨m, h1, h2, h3, h4, h5⟩ := build_spec hsingle hf hend
  refine ⟨m, h1, fun o => ⟨h2 o, h3 o, ?_⟩⟩
  have ai := hf.ainv hsingle
  have ex := hf.extra hsingle
  have al : ∀ o y, ((∃ ys, Sv f.t o ys ∧ ys ≤ y) ∧ ∀ ye, Cv f.t o ye → y < ye) → AliveAt f.t o y := by
    rintro o y ⟨⟨ys, k1, k2⟩, k3⟩
    rw [alive_iff]
    rcases ex.ended o ys k1 with h | ⟨ye, h, _⟩
    · rw [hend] at h; simp at h
    · exact ⟨ys, ye, k1, h, k2, k3 ye h⟩
  rintro y v (h | h)
  · rw [h4] at h
    have := ai.wOk _ _ _ h
    exact ⟨al _ _ this.1, fun w hw => al _ _ (this.2 w hw)⟩
  · rw [h5] at h
    have := ai.eOk _ _ _ h
    exact ⟨al _ _ this.1, fun w hw => al _ _ (this.2 w hw)⟩

end

/-! ## Non-vacuity -/

section
variable {single : Nat → Bool → W} {orient : Nat → Bool}

/-- One checked step of a concrete execution. -/
def stepS (single : Nat → Bool → W) (orient : Nat → Bool) (s : SState K W) (c : StepE K) : Option (SState K W) :=
  if s.line = c.A ++ c.Eo.map OutputEvent.segIdx ++ c.B ∧ hypE single orient s.hist c.A c.B c.y c.E c.Eo c.En c.B.head? = true ∧
      (s.yl < c.y ∨ s.yl = c.y ∧ s.done < c.A.length) then
    (rangeE single orient c.y c.E c.A.getLast? c.B.head? false s.t).map fun t =>
      ⟨s.hist ++ c.E.map fun e => (c.y, e), c.A ++ c.En.map OutputEvent.segIdx ++ c.B, t, c.y, c.A.length + c.En.length⟩
  else none

def runS (single : Nat → Bool → W) (orient : Nat → Bool) : List (StepE K) → SState K W → Option (SState K W)
  | [], s => some s
  | c :: l, s => (stepS single orient s c).bind (runS single orient l)

theorem stepS_step (s s' : SState K W) (c : StepE K) (h : stepS single orient s c = some s') : Step single orient s s' := by
  unfold stepS at h
  split at h
  · rename_i hc
    obtain ⟨t, h1, rfl⟩ := Option.map_eq_some_iff.1 h
    obtain ⟨hist, line, t0, yl, done⟩ := s
    obtain ⟨hl, hh, hy⟩ := hc
    simp only at hl hh hy h1
    subst hl
    exact .range _ _ _ _ _ _ _ _ _ _ _ (hypE_eq _ _ _ _ _ _ _ _ _ _ hh) hy (rangeE_eq _ _ _ _ _ _ _ _ _ h1)
  · simp at h

theorem runS_steps (l : List (StepE K)) : ∀ s s' : SState K W, runS single orient l s = some s' → Steps single orient s s' := by
  induction l with
  | nil => intro s s' h; simp only [runS, Option.some.injEq] at h; rw [← h]; exact .refl _
  | cons c l ih =>
    intro s s' h
    simp only [runS, Option.bind_eq_some_iff] at h
    obtain ⟨u, h1, h2⟩ := h
    exact (Steps.tail _ _ _ (.refl _) (stepS_step _ _ _ h1)).trans (ih _ _ h2)

end

/-- Two diamonds (segments 0-3) with tips at height 0; inside each a smaller one (segments 4-7) from height 2 to height 8, in two
ranges of the same sweep lines. -/
def ringsOrient : Nat → Bool := fun s => s % 2 == 0
def enterAt (x : Int) (l : List Nat) : List (OutputEvent Int) := l.map fun s => ⟨x, false, x, true, s, none, some 0⟩
def exitAt (x : Int) (l : List Nat) : List (OutputEvent Int) := l.map fun s => ⟨x, true, x, false, s, some 0, none⟩
def renum (l : List (OutputEvent Int)) (i : Nat) : List (OutputEvent Int) :=
  l.zipIdx.map fun p => { p.1 with
    sweepIdx := if p.1.connectedBelow then some (i + p.2) else none
    oldSweepIdx := if p.1.connectedAbove then some (i + p.2) else none }
def ringsSteps : List (StepE Int) :=
  let e0 := renum (enterAt 5 [0, 1] ++ enterAt 20 [2, 3]) 0
  let e1 := renum (enterAt 5 [4, 5]) 1
  let e2 := renum (enterAt 20 [6, 7]) 5
  let x1 := renum (exitAt 5 [4, 5]) 1
  let x2 := renum (exitAt 20 [6, 7]) 3
  let x0 := renum (exitAt 5 [0, 1] ++ exitAt 20 [2, 3]) 0
  [⟨[], [], 0, e0, [], e0, none, false⟩, ⟨[0], [1, 2, 3], 2, e1, [], e1, none, false⟩, ⟨[0, 4, 5, 1, 2], [3], 2, e2, [], e2, none, false⟩,
   ⟨[0], [1, 2, 6, 7, 3], 8, x1, x1, [], none, false⟩, ⟨[0, 1, 2], [3], 8, x2, x2, [], none, false⟩,
   ⟨[], [], 10, x0, x0, [], none, false⟩]

/-- The hypotheses of C57 and C58 are met by a complete sweep in which records come from all the sources. -/
theorem C57_nonvacuous : ∃ f : SState Int Int, Steps unit ringsOrient SState.init f ∧ f.line = [] ∧ f.t.n = 8 ∧
    f.t.scanEast 5 = some 1 ∧ f.t.scanWest 4 = some 0 ∧ f.t.scanAfter = [(8, some 0, some 1), (8, some 2, some 3)] := by
  have : (match runS unit ringsOrient ringsSteps (SState.init : SState Int Int) with
      | none => false
      | some s => decide (s.line = [] ∧ s.t.n = 8 ∧ s.t.scanEast 5 = some 1 ∧ s.t.scanWest 4 = some 0 ∧
          s.t.scanAfter = [(8, some 0, some 1), (8, some 2, some 3)])) = true := by decide +kernel
  cases h1 : runS unit ringsOrient ringsSteps (SState.init : SState Int Int) with
  | none => simp [h1] at this
  | some s =>
    simp only [h1, decide_eq_true_eq] at this
    exact ⟨s, runS_steps _ _ _ h1, this⟩

end Verif.Scan
