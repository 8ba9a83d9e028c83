import Verif.Sweep.TotalRange

/-!
# The sweep does not panic: the driver

The driver either returns, or is still at work when the fuel runs out: on some line the intersections do not come to an end, or the lines
do not.
-/

namespace Verif.Sweep
open Verif.Curve Verif.Range Verif.Topo Verif.Scan
set_option linter.unusedSectionVars false

variable {K : Type} [LinearOrder K] {W : Type} [AddCommGroup W] {E : Env K} {single : Nat → Bool → W}

section
variable {S : SState K W} {S0 : List Nat} {M L : List Entry} {s : State K}

theorem LineRun.total (hF : Finished E S0 M L s) (hs : E.Sched) (hE : E.Exact) (hpp : E.PP) (hC : E.Contours single) (hneg : ∀ s b, single s (!b) = - single s b)
    (hO : OrdC E s.y (s.line.map Entry.seg)) {pre cs : List CI} {c : CI} (hchg : s.chg = pre ++ c :: cs) {p : Nat}
    {H : List (K × OutputEvent K)} {t : Topo K W} {yl : WithBot K} {done : Nat} (h : LineRun E single S M s pre p H t yl done)
    {buf buf' : List Entry} {evs : List (OutputEvent K)} (hr : nextRange E s buf c = some (buf', evs)) :
    ∃ t', processRange single E.orient s.y evs (if c.start = 0 then none else s.line[c.start - 1]?.map Entry.seg)
      (s.line[c.stop]?.map Entry.seg) ((s.line[c.stop]?.map Entry.inCh).getD false) t = some t' := by
  have hc : c ∈ s.chg := by rw [hchg]; simp
  obtain ⟨T, To, hT, hline, hyp⟩ := h.rangeHyp hF hs hE hpp hC hO hchg hr
  rw [hF.west hc, (hF.east hc).1, (hF.east hc).2]
  have hrun := h.trail.steps.run
  rw [hline] at hrun
  obtain ⟨t', h1, _⟩ := C24_no_panic single E.orient hneg H _ _ s.y evs _ _ _ false t hrun hyp
  exact ⟨t', h1⟩

theorem processLine_total (hF : Finished E S0 M L s) (hs : E.Sched) (hE : E.Exact) (hpp : E.PP) (hC : E.Contours single) (hneg : ∀ s b, single s (!b) = - single s b)
    (hO : OrdC E s.y (s.line.map Entry.seg)) (hP : Placed s) (cs : List CI) : ∀ {pre : List CI} (_ : s.chg = pre ++ cs) {p : Nat}
    {H : List (K × OutputEvent K)} {t : Topo K W} {yl : WithBot K} {done : Nat} (_ : LineRun E single S M s pre p H t yl done)
    (buf : List Entry), ∃ r, processLine E single s cs buf t = some r := by
  induction cs with
  | nil => intro pre hpre p H t yl done h buf; exact ⟨_, rfl⟩
  | cons c cs ih =>
    intro pre hpre p H t yl done h buf
    obtain ⟨⟨buf1, evs⟩, hnr⟩ := nextRange_total hF hP (c := c) (by rw [hpre]; simp) buf
    obtain ⟨t1, hpr⟩ := h.total hF hs hE hpp hC hneg hO hpre hnr
    obtain ⟨done1, h1⟩ := h.step hF hs hE hpp hC hO hpre hnr hpr
    obtain ⟨r, hr⟩ := ih (by rw [hpre]; simp) h1 buf1
    refine ⟨r, ?_⟩
    simp only [processLine]
    rw [hnr]
    dsimp only
    rw [hpr]
    exact hr

end

/-- Contracts of the driver under which nothing panics: as in `Env.Valid`, the comparison functions work on segments that share a height,
and the line is in order when the changed intervals are computed. -/
structure Env.Sane (E : Env K) (single : Nat → Bool → W) (fuel : Nat) : Prop where
  sched : E.Sched
  exact : E.Exact
  pp : E.PP
  contours : E.Contours single
  comparable : E.Comparable
  ordered : E.Ordered fuel
  neg : ∀ s b, single s (!b) = - single s b

/-- What is known about the state between two lines. -/
structure Quiet (E : Env K) (fuel : Nat) (yl : WithBot K) (s : State K) : Prop where
  between : Between E yl s
  from' : s = State.new E ∨ Reached E fuel s
  waiting : Waiting E yl s.ints
  snp : ∀ i ∈ s.snp, i < s.line.length

theorem Quiet.init (E : Env K) (fuel : Nat) : Quiet E fuel ⊥ (State.new E) := by
  refine ⟨Between.init E, .inl rfl, ?_, ?_⟩
  · intro ev hev; simp [State.new] at hev
  · intro i hi; simp [State.new] at hi

/-- One step: it stops, or it is at the next line, or it has intersections that do not come to an end. -/
theorem Quiet.step {fuel : Nat} {yl : WithBot K} {s : State K} (h : Quiet E fuel yl s) (hV : E.Sane single fuel) :
    nextLine E fuel s = some none ∨
    (∃ s', nextLine E fuel s = some (some s') ∧ Quiet E fuel s'.y s' ∧ Placed s' ∧ OrdC E s'.y (s'.line.map Entry.seg) ∧ yl < s'.y) ∨
    ∃ w, beforeInts E s = some w ∧ Busy E fuel w := by
  rcases nextLine_total hV.contours hV.sched hV.comparable hV.pp h.between h.snp h.waiting fuel
    (fun w v => hV.ordered s w v h.from') with h1 | ⟨s', h1, h2, h3, h4⟩ | h1
  · exact .inl h1
  · right; left
    obtain ⟨g1, ⟨w, v, g2, g3, g4, g5, g6, g7, g8⟩, g9, g10⟩ := nextLine_parts hV.sched hV.pp h.between h1
    have hr : Reached E fuel s' := by
      rcases h.from' with rfl | hr
      · exact .first _ h1
      · exact .next _ _ hr h1
    refine ⟨s', h1, ⟨g9, .inr hr, h2, h3⟩, h4, ?_, g1⟩
    have := hV.ordered s w v h.from' g2 g4
    rw [g3] at this
    rw [g8.chg.same.segs]
    exact this
  · exact .inr (.inr h1)

theorem Env.Sane.ord {fuel : Nat} (hV : E.Sane single fuel) : ∀ s, Reached E fuel s → OrdC E s.y (s.line.map Entry.seg) := by
  intro s hr
  have : Between E s.y s ∧ OrdC E s.y (s.line.map Entry.seg) := by
    induction hr with
    | first s h =>
      obtain ⟨g1, ⟨w, v, g2, g3, g4, g5, g6, g7, g8⟩, g9, g10⟩ := nextLine_parts hV.sched hV.pp (Between.init E) h
      refine ⟨g9, ?_⟩
      have := hV.ordered _ w v (.inl rfl) g2 g4
      rw [g3] at this
      rw [g8.chg.same.segs]
      exact this
    | next s s' hr h ih =>
      obtain ⟨g1, ⟨w, v, g2, g3, g4, g5, g6, g7, g8⟩, g9, g10⟩ := nextLine_parts hV.sched hV.pp ih.1 h
      refine ⟨g9, ?_⟩
      have := hV.ordered _ w v (.inr hr) g2 g4
      rw [g3] at this
      rw [g8.chg.same.segs]
      exact this
  exact this.2

theorem Env.Sane.valid {fuel : Nat} (hV : E.Sane single fuel) : E.Valid single fuel :=
  ⟨hV.sched, hV.exact, hV.pp, hV.contours, hV.ord, hV.neg⟩

/-- The lines after `s` that the sweep comes to. -/
inductive Lines (E : Env K) (fuel2 : Nat) : Nat → State K → State K → Prop
  | zero (s : State K) : Lines E fuel2 0 s s
  | succ (n : Nat) (s s' s'' : State K) : nextLine E fuel2 s = some (some s') → Lines E fuel2 n s' s'' → Lines E fuel2 (n + 1) s s''

/-- The driver returns, or it has been through as many lines as it has fuel, or on the line after one of them the intersections do not come
to an end. -/
theorem sweepLoop_total {fuel2 : Nat} (hV : E.Sane single fuel2) (fuel : Nat) : ∀ {yl : WithBot K} {s : State K} (buf : List Entry)
    {H : List (K × OutputEvent K)} {t : Topo K W} {yl0 : WithBot K} {done : Nat}, Quiet E fuel2 yl s →
    (∀ q ∈ H, (q.1 : WithBot K) ≤ yl) → (∀ q ∈ H, EvOk E q.1 q.2) → yl0 ≤ yl → Trail E single ⟨H, newSegs s.line, t, yl0, done⟩ →
    (∃ t', sweepLoop E single fuel2 fuel s buf t = some t') ∨ (∃ s', Lines E fuel2 fuel s s') ∨
      ∃ n s' w, Lines E fuel2 n s s' ∧ beforeInts E s' = some w ∧ Busy E fuel2 w := by
  induction fuel with
  | zero => intro yl s buf H t yl0 done _ _ _ _ _; exact .inr (.inl ⟨s, .zero s⟩)
  | succ fuel ih =>
    intro yl s buf H t yl0 done hQ hh hok hle hst
    rcases hQ.step hV with h1 | ⟨s1, hn, hQ1, hP, hO, hlt⟩ | ⟨w, h1, h2⟩
    · left
      refine ⟨t, ?_⟩
      simp only [sweepLoop]
      rw [h1]
    · obtain ⟨hy, ⟨M, L, hF⟩, hB1, hny⟩ := nextLine_some hV.sched hV.pp hQ.between hn
      have hL0 : LineRun E single ⟨H, newSegs s.line, t, yl0, done⟩ M s1 [] 0 H t yl0 done := by
        constructor
        case trail =>
          show Trail E single ⟨H, [] ++ oldSegs M, t, yl0, done⟩
          rw [List.nil_append, hF.old]; exact hst
        case beyond =>
          intro z _
          show Beyond single E.orient z _ ⟨H, [] ++ oldSegs M, t, yl0, done⟩
          rw [List.nil_append, hF.old]; exact .inl rfl
        case place => exact .inl ⟨lt_of_le_of_lt hle hy, rfl, rfl⟩
        case hist =>
          intro q hq
          left
          exact WithBot.coe_lt_coe.1 (lt_of_le_of_lt (hh q hq) hy)
        case all => simp
        case ok => exact hok
      obtain ⟨⟨buf1, t1⟩, hpl⟩ := processLine_total hF hV.sched hV.exact hV.pp hV.contours hV.neg hO hP s1.chg (pre := []) rfl hL0 buf
      obtain ⟨H', p', yl2, done2, ⟨D, hD, -⟩, hfin, hle2⟩ := processLine_spec hF hV.sched hV.exact hV.pp hV.contours hO s1.chg (pre := []) rfl hL0 hpl
      obtain ⟨hst1, -⟩ := hfin.finish hF
      rcases ih buf1 hQ1 (by
          intro q hq
          rcases hfin.hist q hq with h1 | h1
          · exact WithBot.coe_le_coe.2 h1.le
          · exact WithBot.coe_le_coe.2 h1.1.le) hfin.ok hle2 hst1 with ⟨t', h1⟩ | ⟨s', h1⟩ | ⟨n, s', w, h1, h2⟩
      · left
        refine ⟨t', ?_⟩
        simp only [sweepLoop]
        rw [hn]
        dsimp only
        rw [hpl]
        exact h1
      · exact .inr (.inl ⟨s', .succ _ _ _ _ hn h1⟩)
      · exact .inr (.inr ⟨n + 1, s', w, .succ _ _ _ _ hn h1, h2⟩)
    · exact .inr (.inr ⟨0, s, w, .zero s, h1, h2⟩)

theorem fromSegments_total {fuel2 : Nat} (hV : E.Sane single fuel2) (fuel : Nat) :
    (∃ t, fromSegments E single fuel2 fuel = some t) ∨ (∃ s', Lines E fuel2 fuel (State.new E) s') ∨
      ∃ n s' w, Lines E fuel2 n (State.new E) s' ∧ beforeInts E s' = some w ∧ Busy E fuel2 w :=
  sweepLoop_total hV fuel [] (H := []) (Quiet.init E fuel2) (by simp) (by simp) le_rfl .init

end Verif.Sweep
