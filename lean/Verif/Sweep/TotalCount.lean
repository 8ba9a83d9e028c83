import Verif.Sweep.TotalSweep
import Verif.Sweep.Props

/-!
# The number of sweep lines

Every sweep line is at one of finitely many heights that are known from the segments and from the comparisons of the segments, and no
height comes twice. So the sweep can only go on for ever within one sweep line.
-/

namespace Verif.Sweep
open Verif.Curve Verif.Range Verif.Topo Verif.Scan
set_option linter.unusedSectionVars false

variable {K : Type} [LinearOrder K] {W : Type} [AddCommGroup W] {E : Env K} {single : Nat → Bool → W}

/-- What is known about the state between two lines, whatever the order of the segments on it. -/
structure Idle (E : Env K) (yl : WithBot K) (s : State K) : Prop where
  between : Between E yl s
  waiting : Waiting E yl s.ints
  snp : ∀ i ∈ s.snp, i < s.line.length

theorem Idle.init (E : Env K) : Idle E ⊥ (State.new E) := by
  refine ⟨Between.init E, ?_, ?_⟩
  · intro ev hev; simp [State.new] at hev
  · intro i hi; simp [State.new] at hi

theorem Busy.not_done {n : Nat} {s : State K} (h : Busy E n s) : intLoop E n s = none := by
  induction h with
  | zero s => rfl
  | succ n s s' ev rest h1 h2 h3 _ ih =>
    simp only [intLoop, h1]
    rw [if_pos h2, h3]
    exact ih

/-- The next line is one of the heights. -/
theorem Idle.next (hC : E.Contours single) (hs : E.Sched) (hK : E.Comparable) (hpp : E.PP) {yl : WithBot K} {s s' : State K} {fuel : Nat}
    (h : Idle E yl s) (hn : nextLine E fuel s = some (some s')) : yl < s'.y ∧ s'.y ∈ E.heights ∧ Idle E s'.y s' := by
  obtain ⟨h1, -, h2, h3⟩ := nextLine_parts hs hpp h.between hn
  suffices h : Waiting E s'.y s'.ints ∧ ∀ i ∈ s'.snp, i < s'.line.length from ⟨h1, nextY_heights ‹Idle E yl s›.waiting h3, h2, h.1, h.2⟩
  obtain ⟨w, hw, hR⟩ := beforeInts_total hC hs hK hpp h.between h.snp h3
  have hL := beforeInts_live hs hK h.between h.waiting h3 hw
  unfold nextLine at hn
  unfold beforeInts at hw
  rw [h3] at hw hn
  dsimp only at hw hn
  split at hw
  · simp at hw
  rename_i s1 hs1
  rw [hs1] at hn
  dsimp only at hn
  split at hw
  · simp at hw
  rename_i s2 hs2
  rw [hs2] at hn
  dsimp only at hn
  rw [hw] at hn
  dsimp only at hn
  rcases intLoop_total hs hK hR fuel hR.y_eq hR.move hR.queue hL with ⟨v, hv, hvl, hvm⟩ | hbusy
  · rw [hv] at hn
    dsimp only at hn
    split at hn
    · simp at hn
    rename_i s5 hs5
    simp only [Option.some.injEq] at hn
    subst hn
    obtain ⟨j1, j2, j3, j4, j5, j6, j7⟩ := computeChanged_spec hpp hs5 (hvm.inCh fun e he => (hR.blank e he).1) hvm.moved
    refine ⟨?_, ?_⟩
    · intro ev hev
      rw [j6] at hev
      exact ⟨_, le_rfl, hvl ev hev⟩
    · intro i hi
      rw [j7] at hi
      rw [j1.same.len]
      exact hvm.lt i hi
  · exfalso
    rw [hbusy.not_done] at hn
    simp at hn

/-- The heights above which the line is. -/
theorem LineChain.count (hC : E.Contours single) (hs : E.Sched) (hK : E.Comparable) (hpp : E.PP) {fuel : Nat} {s : State K} {l : List (State K)}
    (h : LineChain E fuel s l) : ∀ {yl : WithBot K}, Idle E yl s →
      (l.map State.y).Pairwise (· < ·) ∧ (∀ y ∈ l.map State.y, yl < y) ∧ ∀ y ∈ l.map State.y, y ∈ E.heights := by
  induction h with
  | nil s => intro yl _; simp
  | cons s s' l hn _ ih =>
    intro yl hI
    obtain ⟨h1, h2, h3⟩ := hI.next hC hs hK hpp hn
    obtain ⟨k1, k2, k3⟩ := ih h3
    simp only [List.map_cons, List.pairwise_cons, List.mem_cons, forall_eq_or_imp]
    exact ⟨⟨fun y hy => WithBot.coe_lt_coe.1 (k2 y hy), k1⟩, ⟨h1, fun y hy => h1.trans (k2 y hy)⟩, h2, k3⟩

/-- There are at most as many sweep lines as heights. -/
theorem LineChain.length_le (hC : E.Contours single) (hs : E.Sched) (hK : E.Comparable) (hpp : E.PP) {fuel : Nat} {l : List (State K)}
    (h : LineChain E fuel (State.new E) l) : l.length ≤ E.heights.length := by
  obtain ⟨h1, _, h3⟩ := h.count hC hs hK hpp (Idle.init E)
  have hn : (l.map State.y).Nodup := h1.imp fun hab => hab.ne
  have := (List.subperm_of_subset hn h3).length_le
  simpa using this

/-- C31: there are at most as many sweep lines as heights at which a segment starts or ends or a comparison changes. -/
theorem C31_finite (hC : E.Contours single) (hs : E.Sched) (hK : E.Comparable) (hpp : E.PP) {fuel : Nat} {l : List (State K)}
    (h : LineChain E fuel (State.new E) l) : l.length ≤ E.heights.length ∧ ∀ s ∈ l, s.y ∈ E.heights :=
  ⟨h.length_le hC hs hK hpp, fun _ hs' => (h.count hC hs hK hpp (Idle.init E)).2.2 _ (List.mem_map_of_mem hs')⟩

theorem Lines.chain {fuel2 n : Nat} {s s' : State K} (h : Lines E fuel2 n s s') : ∃ l, LineChain E fuel2 s l ∧ l.length = n := by
  induction h with
  | zero s => exact ⟨[], .nil s, rfl⟩
  | succ n s s' s'' hn _ ih =>
    obtain ⟨l, h1, h2⟩ := ih
    exact ⟨s' :: l, .cons _ _ _ hn h1, by simp [h2]⟩

/-- The sweep returns, or on some line it handles as many intersections as it has fuel for. -/
theorem fromSegments_returns {fuel2 : Nat} (hV : E.Sane single fuel2) {fuel : Nat} (hf : E.heights.length < fuel) :
    (∃ t, fromSegments E single fuel2 fuel = some t) ∨
      ∃ n s' w, Lines E fuel2 n (State.new E) s' ∧ beforeInts E s' = some w ∧ Busy E fuel2 w := by
  rcases fromSegments_total hV fuel with h | ⟨s', h⟩ | h
  · exact .inl h
  · obtain ⟨l, h1, h2⟩ := h.chain
    have := h1.length_le hV.contours hV.sched hV.comparable hV.pp
    omega
  · exact .inr h

end Verif.Sweep
