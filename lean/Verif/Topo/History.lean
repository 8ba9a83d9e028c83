import Verif.Topo.RangeStep

/-! Whole executions of the sweep, as seen by the construction of the topology. -/

namespace Verif.Topo
open Verif.Range
set_option linter.unusedSectionVars false

variable {K : Type} [LinearOrder K] {W : Type} [AddCommGroup W]

/-- One range never fails and preserves the invariant. -/
theorem processRange_spec (single : Nat → Bool → W) (orient : Nat → Bool)
    (hsingle : ∀ s b, single s (!b) = - single s b) (hist : List (K × OutputEvent K)) (A B : List Nat) (y : K)
    (E Eo En : List (OutputEvent K)) (east : Option Nat) (H : RangeHyp single orient hist A B y E Eo En east)
    (ch : Bool) (t : Topo K W) (hinv : LineInv single orient hist (A ++ Eo.map OutputEvent.segIdx ++ B) t) :
    ∃ t', processRange single orient y E A.getLast? east ch t = some t' ∧
      LineInv single orient (hist ++ E.map fun e => (y, e)) (A ++ En.map OutputEvent.segIdx ++ B) t' := by
  obtain ⟨s, hrun, hs, hl, _⟩ := range_loop single orient hsingle hist A B y E Eo En east H t hinv _ _ rfl rfl
  unfold processRange
  simp only [hrun]
  have hopen : ∀ a, a ∈ A ∨ a ∈ B → ∃ o, (s.t.openSegs a).head? = some o := by
    intro a ha
    obtain ⟨o, _, _, _, h1, _⟩ := hs.openIn a (by simp only [List.mem_append]; tauto)
    exact ⟨o, by rw [h1]; rfl⟩
  cases hd : s.lastDown with
  | some seg =>
    cases he : east with
    | none => exact ⟨s.t, rfl, hs⟩
    | some e =>
      cases ch with
      | true => exact ⟨s.t, rfl, hs⟩
      | false => exact ⟨_, rfl, hs.congrScan _ _⟩
  | none =>
    have hwest : ∀ a, A.getLast? = some a → ∃ o, (s.t.openSegs a).head? = some o := fun a ha =>
      hopen a (.inl (List.mem_of_getLast? ha))
    have heast : ∀ a, east = some a → ∃ o, (s.t.openSegs a).head? = some o := fun a ha =>
      hopen a (.inr (H.eastIn a ha))
    cases hA : A.getLast? with
    | none =>
      cases he : east with
      | none => exact ⟨s.t, rfl, hs⟩
      | some e =>
        obtain ⟨o, ho⟩ := heast e he
        simp only [Option.map_none, Option.map_some, ho]
        exact ⟨_, rfl, hs.congrScan _ _⟩
    | some a =>
      obtain ⟨o1, ho1⟩ := hwest a hA
      cases he : east with
      | none =>
        simp only [Option.map_none, Option.map_some, ho1]
        exact ⟨_, rfl, hs.congrScan _ _⟩
      | some e =>
        obtain ⟨o, ho⟩ := heast e he
        simp only [Option.map_some, ho, ho1]
        exact ⟨_, rfl, hs.congrScan _ _⟩

/-- The executions of the loop of `from_segments` (topology.rs:511-529): `Run hist line t` says that after
processing ranges with the events `hist` the sweep line is `line` and the topology is `t`.
The hypotheses on each range are in `RangeHyp`. -/
inductive Run (single : Nat → Bool → W) (orient : Nat → Bool) :
    List (K × OutputEvent K) → List Nat → Topo K W → Prop
  | init : Run single orient [] [] Topo.init
  | range (hist : List (K × OutputEvent K)) (A B : List Nat) (y : K) (E Eo En : List (OutputEvent K))
      (east : Option Nat) (ch : Bool) (t t' : Topo K W) :
      Run single orient hist (A ++ Eo.map OutputEvent.segIdx ++ B) t →
      RangeHyp single orient hist A B y E Eo En east →
      processRange single orient y E A.getLast? east ch t = some t' →
      Run single orient (hist ++ E.map fun e => (y, e)) (A ++ En.map OutputEvent.segIdx ++ B) t'

theorem Run.inv {single : Nat → Bool → W} {orient : Nat → Bool} (hsingle : ∀ s b, single s (!b) = - single s b)
    {hist : List (K × OutputEvent K)} {line : List Nat} {t : Topo K W} (h : Run single orient hist line t) :
    LineInv single orient hist line t := by
  induction h with
  | init => exact lineInv_init single orient
  | range hist A B y E Eo En east ch t t' _ H hp ih =>
    obtain ⟨t'', h1, h2⟩ := processRange_spec single orient hsingle hist A B y E Eo En east H ch t ih
    rw [hp] at h1
    have : t' = t'' := Option.some.inj h1
    rw [this]; exact h2

/-! ## Rings -/

theorem Ring.head_cw {nb : Half → Nbrs} {h : Half} {M : List Half} (hr : Ring nb (h :: M)) :
    Link nb h (M.headD h) := by
  have := hr.2
  cases M with
  | nil =>
    simp only [List.head?_cons, Option.toList_some, List.cons_append, List.nil_append, List.isChain_cons_cons] at this
    exact this.1
  | cons b M =>
    rw [List.cons_append, List.cons_append, List.isChain_cons_cons] at this
    exact this.1

theorem Ring.exists_rotate {nb : Half → Nbrs} {L : List Half} (hr : Ring nb L) {h : Half} (hm : h ∈ L) :
    ∃ M, Ring nb (h :: M) ∧ (h :: M).Perm L := by
  obtain ⟨A, B, rfl⟩ := List.append_of_mem hm
  exact ⟨B ++ A, hr.rotate, List.perm_append_comm (l₁ := h :: B) (l₂ := A)⟩

/-- The clockwise neighbour is in the ring, and going back counter-clockwise returns. -/
theorem Ring.cw {nb : Half → Nbrs} {L : List Half} (hr : Ring nb L) {h : Half} (hm : h ∈ L) :
    (nb h).cw ∈ L ∧ (nb (nb h).cw).ccw = h := by
  obtain ⟨M, h1, h2⟩ := hr.exists_rotate hm
  have h3 := h1.head_cw
  refine ⟨?_, by rw [h3.1]; exact h3.2⟩
  rw [h3.1, ← h2.mem_iff]
  cases M <;> simp

/-- Every element is the clockwise neighbour of some element. -/
theorem Ring.ccw {nb : Half → Nbrs} {L : List Half} (hr : Ring nb L) {h : Half} (hm : h ∈ L) :
    (nb h).ccw ∈ L ∧ (nb (nb h).ccw).cw = h := by
  obtain ⟨M, h1, h2⟩ := hr.exists_rotate hm
  rcases List.eq_nil_or_concat M with rfl | ⟨M', z, rfl⟩
  · have h3 := h1.head_cw
    simp only [List.headD_nil] at h3
    exact ⟨by rw [h3.2]; exact hm, by rw [h3.2]; exact h3.1⟩
  · rw [List.concat_eq_append] at h1 h2
    have h4 : Ring nb ([z] ++ (h :: M')) := by
      have : h :: (M' ++ [z]) = (h :: M') ++ [z] := rfl
      rw [this] at h1; exact h1.rotate
    have h5 : Link nb z h := Ring.head_cw (M := h :: M') h4
    refine ⟨?_, by rw [h5.2]; exact h5.1⟩
    rw [h5.2, ← h2.mem_iff]; simp

theorem chain_iterate (nb : Half → Nbrs) (L : List Half) : ∀ h, (h :: L).IsChain (Link nb) → ∀ k, (hk : k < (h :: L).length) →
    (fun a => (nb a).cw)^[k] h = (h :: L)[k] := by
  induction L with
  | nil => intro h _ k hk; simp at hk; subst hk; rfl
  | cons b L ih =>
    intro h hc k hk
    rw [List.isChain_cons_cons] at hc
    cases k with
    | zero => rfl
    | succ k =>
      rw [Function.iterate_succ_apply, hc.1.1, ih b hc.2 k (by simpa using hk)]
      simp

/-- Any two elements of a ring are connected by clockwise steps. -/
theorem Ring.orbit {nb : Half → Nbrs} {L : List Half} (hr : Ring nb L) {h h' : Half} (hm : h ∈ L) (hm' : h' ∈ L) :
    ∃ k, (fun a => (nb a).cw)^[k] h = h' := by
  obtain ⟨M, h1, h2⟩ := hr.exists_rotate hm
  rw [← h2.mem_iff] at hm'
  obtain ⟨k, hk, he⟩ := List.mem_iff_getElem.1 hm'
  have hc : (h :: M).IsChain (Link nb) := h1.2.left_of_append
  exact ⟨k, by rw [chain_iterate nb M h hc k hk, he]⟩

theorem WPath.splitAt {cw ccw : Half → W} {l1 l2 : List Half} {u v : W} (h : WPath cw ccw u (l1 ++ l2) v) :
    ∃ m, WPath cw ccw u l1 m ∧ WPath cw ccw m l2 v := by
  induction l1 generalizing u with
  | nil => exact ⟨u, rfl, h⟩
  | cons i l1 ih =>
    obtain ⟨m, h1, h2⟩ := ih h.2
    exact ⟨m, ⟨h.1, h1⟩, h2⟩

/-- In a ring whose windings fit together, each half-segment fits to its clockwise neighbour. -/
theorem ring_fit {cw ccw : Half → W} {nb : Half → Nbrs} {L : List Half} {w : W} (hr : Ring nb L)
    (hw : WPath cw ccw w L w) {h : Half} (hm : h ∈ L) : cw h = ccw (nb h).cw := by
  obtain ⟨A, B, rfl⟩ := List.append_of_mem hm
  have h1 : Ring nb (h :: (B ++ A)) := hr.rotate
  obtain ⟨m, w1, w2⟩ := hw.splitAt
  have w3 : WPath cw ccw m ((h :: B) ++ A) m := w2.append w1
  rw [h1.head_cw.1]
  obtain ⟨q1, q2⟩ := w3
  have q2 : WPath cw ccw (cw h) (B ++ A) m := q2
  cases hM : B ++ A with
  | nil => rw [hM] at q2; simp only [List.headD_nil]; rw [q1]; exact q2
  | cons b M => rw [hM] at q2; exact q2.1.symm

end Verif.Topo
