import Verif.Sweep.TotalChg
import Verif.Sweep.Main

/-!
# The sweep does not panic: one sweep line
-/

namespace Verif.Sweep
open Verif.Curve Verif.Range Verif.Topo
set_option linter.unusedSectionVars false

variable {K : Type} [LinearOrder K] {E : Env K}

theorem MoveInv.inCh {M line : List Entry} {snp : List Nat} (h : MoveInv M line snp) (hb : ∀ e ∈ M, e.inCh = false) : ∀ e ∈ line, e.inCh = false := by
  have hc : CutAt snp line.length := .inl fun hi => absurd (h.lt _ hi) (lt_irrefl _)
  have hp := h.perm _ hc
  rw [List.take_length, h.len, List.take_length] at hp
  have key : ∀ (k : Nat) (l : List Entry), (places k l).map (fun p => p.2) = l.map Entry.strip := by
    intro k l
    induction l generalizing k with
    | nil => rfl
    | cons e l ih => rw [places, List.map_cons, ih]; rfl
  have hp' := hp.map fun p => p.2
  rw [key, key] at hp'
  intro e he
  have : e.strip ∈ M.map Entry.strip := hp'.mem_iff.1 (List.mem_map_of_mem he)
  obtain ⟨f, hf, h2⟩ := List.mem_map.1 this
  have h3 := hb f hf
  have := congrArg Entry.inCh h2
  simp only [Entry.strip] at this
  rw [← this]; exact h3

/-- The line is in order, up to the tolerance, when the intersections of a sweep line have been handled. -/
def Env.Ordered (E : Env K) (fuel : Nat) : Prop :=
  ∀ s w v, (s = State.new E ∨ Reached E fuel s) → beforeInts E s = some w → intLoop E fuel w = some v → OrdC E w.y (v.line.map Entry.seg)

/-- The entries of the changed intervals know their old places. -/
def Placed (s : State K) : Prop := ∀ c ∈ s.chg, ∀ (i : Nat) (e : Entry), c.start ≤ i → i < c.stop → s.line[i]? = some e → e.oldIdx ≠ none

/-- `next_line` stops, or finds a line, or does not come to the end of the intersections. -/
theorem nextLine_total {W : Type} [AddCommGroup W] {single : Nat → Bool → W} (hC : E.Contours single) (hs : E.Sched) (hK : E.Comparable) (hpp : E.PP)
    {yl : WithBot K} {s : State K} (hb : Between E yl s) (hsnp : ∀ i ∈ s.snp, i < s.line.length) (hwt : Waiting E yl s.ints) (fuel : Nat)
    (hord : ∀ w v, beforeInts E s = some w → intLoop E fuel w = some v → OrdC E w.y (v.line.map Entry.seg)) :
    nextLine E fuel s = some none ∨
    (∃ s', nextLine E fuel s = some (some s') ∧ Waiting E s'.y s'.ints ∧ (∀ i ∈ s'.snp, i < s'.line.length) ∧ Placed s') ∨
    ∃ w, beforeInts E s = some w ∧ Busy E fuel w := by
  cases hy : nextY E s with
  | none => left; unfold nextLine; rw [hy]
  | some y =>
    obtain ⟨w, hw, hR⟩ := beforeInts_total hC hs hK hpp hb hsnp hy
    have hL := beforeInts_live hs hK hb hwt hy hw
    right
    rcases intLoop_total hs hK hR fuel hR.y_eq hR.move hR.queue hL with ⟨v, hv, hvl, hvm⟩ | hbusy
    · left
      obtain ⟨i1, i2, i3, i4, i5, i6, i7, i8⟩ := intLoop_spec fuel hv hR.move (by rw [hR.y_eq]; exact hR.queue)
      have hvy : v.y = y := i4.trans hR.y_eq
      have hS := hR.shuffled hs hvm
      have ho := hord w v hw hv
      rw [← i4] at ho
      obtain ⟨s', hs', hsure⟩ := computeChanged_total hpp hK (s := v) (by rw [hvy]; exact hS.on) ho hvm.lt (by
        rw [i8]
        intro x hx
        obtain ⟨h1, h2, h3⟩ := hR.horiz x hx
        exact ⟨hC.flat x h1 h2, x, h1, .inl (h3.trans hvy.symm)⟩) (hvm.inCh fun e he => (hR.blank e he).1) hvm.moved
      obtain ⟨j1, j2, j3, j4, j5, j6, j7⟩ := computeChanged_spec hpp hs' (hvm.inCh fun e he => (hR.blank e he).1) hvm.moved
      refine ⟨s', ?_, ?_, ?_, hsure⟩
      · unfold beforeInts at hw
        unfold nextLine
        rw [hy] at hw ⊢
        dsimp only at hw ⊢
        split at hw
        · simp at hw
        rename_i s1 hs1
        rw [hs1]
        dsimp only
        split at hw
        · simp at hw
        rename_i s2 hs2
        rw [hs2]
        dsimp only
        rw [hw]
        dsimp only
        rw [hv]
        dsimp only
        rw [hs']
      · intro ev hev
        rw [j6] at hev
        exact ⟨y, by rw [j3, hvy], hvl ev hev⟩
      · intro i hi
        rw [j7] at hi
        rw [j1.same.len]
        exact hvm.lt i hi
    · exact .inr ⟨w, hw, hbusy⟩

end Verif.Sweep
