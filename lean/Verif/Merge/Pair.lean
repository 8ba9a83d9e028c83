import Verif.Merge.Delete

/-! Merging one segment into another. -/

namespace Verif.Merge
open Verif.Topo
set_option linter.unusedSectionVars false

variable {K : Type} [LinearOrder K] {W : Type} [AddCommGroup W] [DecidableEq W]

/-- The state after deleting `i` and giving its outer winding to `c`. -/
def moved (t : Topo K W) (i c : Nat) : Topo K W :=
  { t.delete i with winding := Verif.Topo.set t.winding c ⟨(t.winding c).cw, (t.winding i).ccw⟩ }

theorem moved_winding (t : Topo K W) (i c j : Nat) :
    (moved t i c).winding j = if j = c then ⟨(t.winding c).cw, (t.winding i).ccw⟩ else t.winding j := rfl

theorem mergeInto_eq (t : Topo K W) (i c : Nat) :
    mergeInto t i c = if (t.winding c).cw = (t.winding i).ccw then (moved t i c).delete c else moved t i c := by
  unfold mergeInto
  dsimp only
  have : ∀ u v : HW W, u = v → u.cw = v.cw ∧ u.ccw = v.ccw := by rintro u v rfl; exact ⟨rfl, rfl⟩
  have h := this _ _ (moved_winding t i c c)
  rw [if_pos rfl] at h
  show (if ((moved t i c).winding c).cw = ((moved t i c).winding c).ccw then (moved t i c).delete c else moved t i c) = _
  rw [h.1, h.2]

theorem mergeInto_winding (t : Topo K W) (i c j : Nat) :
    (mergeInto t i c).winding j = if j = c then ⟨(t.winding c).cw, (t.winding i).ccw⟩ else t.winding j := by
  rw [mergeInto_eq]
  split
  · rw [delete_winding]; exact moved_winding t i c j
  · exact moved_winding t i c j

theorem mergeInto_deleted (t : Topo K W) (i c j : Nat) :
    (mergeInto t i c).deleted j = if j = i then true else
      if j = c ∧ (t.winding c).cw = (t.winding i).ccw then true else t.deleted j := by
  have hm : ∀ j, (moved t i c).deleted j = if j = i then true else t.deleted j := fun j => rfl
  rw [mergeInto_eq]
  split
  · rename_i h
    rw [delete_deleted, hm]
    by_cases h1 : j = i <;> by_cases h2 : j = c <;> simp [h1, h2, h]
  · rename_i h
    rw [hm]; simp [h]

theorem moved_rings {t : Topo K W} {L : Nat → List Half} (G : Geo t L) (hR : Rings t L) (i c : Nat) (hi : i < t.n)
    (hl : t.deleted i = false) : Rings (moved t i c) L := delete_rings G hR i hi hl

theorem moved_same (t : Topo K W) (i c : Nat) : Same t (moved t i c) := ⟨rfl, rfl, rfl, rfl, rfl, rfl, rfl, rfl⟩

/-- The circular lists survive, also in the degenerate case `c = i`. -/
theorem mergeInto_rings {t : Topo K W} {L : Nat → List Half} (G : Geo t L) (hR : Rings t L) (i c : Nat) (hi : i < t.n)
    (hc : c < t.n) (hl : t.deleted i = false) (hlc : t.deleted c = false) : Rings (mergeInto t i c) L := by
  rw [mergeInto_eq]
  split
  · by_cases hci : c = i
    · subst hci
      have e : ((moved t c c).delete c).nb = (moved t c c).nb := delete_delete G hR c hc hl
      have d : ∀ h, live ((moved t c c).delete c) h = live (moved t c c) h := by
        intro h
        unfold live
        rw [delete_deleted]
        show (!if h.idx = c then true else if h.idx = c then true else t.deleted h.idx) =
          !if h.idx = c then true else t.deleted h.idx
        by_cases q : h.idx = c <;> simp [q]
      intro p hp
      have := moved_rings G hR c c hc hl p hp
      rw [e]
      have hf : (L p).filter (live ((moved t c c).delete c)) = (L p).filter (live (moved t c c)) :=
        List.filter_congr (fun h _ => d h)
      rw [hf]; exact this
    · refine delete_rings (G.same (moved_same t i c)) (moved_rings G hR i c hi hl) c hc ?_
      show (if c = i then true else t.deleted c) = false
      rw [if_neg hci]; exact hlc
  · exact moved_rings G hR i c hi hl

/-- If the two segments are neighbours at both ends, the windings still fit. -/
theorem mergeInto_fit {t : Topo K W} {L : Nat → List Half} (G : Geo t L) (hR : Rings t L) (hF : Fit t L) (i c : Nat)
    (hi : i < t.n) (hc : c < t.n) (hne : c ≠ i) (hl : t.deleted i = false) (hlc : t.deleted c = false)
    (hs : (t.nb ⟨i, true⟩).cw = ⟨c, true⟩) (he : (t.nb ⟨c, false⟩).cw = ⟨i, false⟩) :
    Fit (mergeInto t i c) L := by
  obtain ⟨p, q, hp, hq, hpq⟩ := G.pts i hi
  obtain ⟨⟨a1, a2, a3⟩, _⟩ := nbr_live G hR ⟨i, true⟩ p hp hl
  rw [hs] at a1 a2 a3
  obtain ⟨p', q', hp', hq', hpq'⟩ := G.pts c hc
  obtain ⟨⟨b1, b2, b3⟩, _⟩ := nbr_live G hR ⟨c, false⟩ q' hq' hlc
  rw [he] at b1 b2 b3
  have inF : ∀ r, r < t.points.length → ∀ a, t.pointIdx a = some r → t.deleted a.idx = false →
      t.windingCw a = t.windingCcw (t.nb a).cw := by
    intro r hr a ha hda
    exact hF r hr a (by rw [List.mem_filter, G.mem r hr]; exact ⟨ha, by simp [live, hda]⟩)
  have key : Fit (moved t i c) L := by
    intro r hr h hm
    have hr : r < t.points.length := hr
    rw [List.mem_filter, G.mem r hr] at hm
    obtain ⟨h1, h2⟩ := hm
    have hml : ∀ j, (moved t i c).deleted j = if j = i then true else t.deleted j := fun j => rfl
    have hhi : h.idx ≠ i := by
      intro hc; simp [live, hml, hc] at h2
    have hd : t.deleted h.idx = false := by simpa [live, hml, hhi] using h2
    obtain ⟨⟨c1, c2, c3⟩, _⟩ := nbr_live G hR h r h1 hd
    have hcw : ((moved t i c).nb h).cw = if (t.nb h).cw.idx = i then (t.nb (t.nb h).cw).cw else (t.nb h).cw :=
      delete_cw G hR i hi hl h r h1 hd
    -- windings of the new state
    have wcw : ∀ a : Half, a ≠ ⟨c, false⟩ → (moved t i c).windingCw a = t.windingCw a := by
      rintro ⟨j, b⟩ ha
      unfold Topo.windingCw
      rw [moved_winding]
      by_cases hj : j = c
      · subst hj
        cases b
        · exact absurd rfl ha
        · simp
      · simp [hj]
    have wccw : ∀ a : Half, a ≠ ⟨c, true⟩ → (moved t i c).windingCcw a = t.windingCcw a := by
      rintro ⟨j, b⟩ ha
      unfold Topo.windingCcw
      rw [moved_winding]
      by_cases hj : j = c
      · subst hj
        cases b
        · simp
        · exact absurd rfl ha
      · simp [hj]
    have wc1 : (moved t i c).windingCw ⟨c, false⟩ = t.windingCw ⟨i, false⟩ := by
      unfold Topo.windingCw; rw [moved_winding]; simp
    have wc2 : (moved t i c).windingCcw ⟨c, true⟩ = t.windingCcw ⟨i, true⟩ := by
      unfold Topo.windingCcw; rw [moved_winding]; simp
    rw [hcw]
    by_cases hhc : h = ⟨c, false⟩
    · subst hhc
      rw [he, if_pos rfl, wc1, inF q (G.lt _ _ hq).1 _ hq hl]
      symm
      apply wccw
      intro hz
      obtain ⟨⟨d1, _, _⟩, _⟩ := nbr_live G hR ⟨i, false⟩ q hq hl
      rw [hz, a1] at d1
      have : p = q := by simpa using d1
      omega
    · rw [wcw h hhc, inF r hr h h1 hd]
      by_cases hn : (t.nb h).cw.idx = i
      · rw [if_pos hn]
        cases hf : (t.nb h).cw.first
        · have : (t.nb h).cw = ⟨i, false⟩ := by rw [← hn, ← hf]
          rw [this, b3] at c3
          exact absurd c3.symm hhc
        · have : (t.nb h).cw = ⟨i, true⟩ := by rw [← hn, ← hf]
          rw [this, hs, wc2]
      · rw [if_neg hn]
        symm
        apply wccw
        intro hz
        rw [hz, a3] at c3
        rw [← c3] at hhi
        exact hhi rfl
  rw [mergeInto_eq]
  split
  · rename_i htriv
    refine delete_fit (G.same (moved_same t i c)) (moved_rings G hR i c hi hl) key c hc ?_ ?_
    · show (if c = i then true else t.deleted c) = false
      rw [if_neg hne]; exact hlc
    · rw [moved_winding, if_pos rfl]; exact htriv
  · exact key

/-- Pointwise fit and the list form. -/
theorem fit_path {nb : Half → Nbrs} {cw ccw : Half → W} {L : List Half} (hr : Ring nb L)
    (hf : ∀ h ∈ L, cw h = ccw (nb h).cw) : ∃ w, WPath cw ccw w L w := by
  have gen : ∀ (M : List Half) (h z : Half), (h :: M ++ [z]).IsChain (Link nb) → (∀ a ∈ h :: M, cw a = ccw (nb a).cw) →
      WPath cw ccw (ccw h) (h :: M) (ccw z) := by
    intro M
    induction M with
    | nil =>
      intro h z hc hf
      simp only [List.cons_append, List.nil_append, List.isChain_cons_cons] at hc
      refine ⟨rfl, ?_⟩
      show cw h = ccw z
      rw [hf h (by simp), hc.1.1]
    | cons b M ih =>
      intro h z hc hf
      rw [List.cons_append, List.cons_append, List.isChain_cons_cons] at hc
      refine ⟨rfl, ?_⟩
      have := ih b z hc.2 (fun a ha => hf a (List.mem_cons_of_mem _ ha))
      rw [hf h (by simp), hc.1.1]
      exact this
  cases L with
  | nil => exact ⟨0, rfl⟩
  | cons h M =>
    refine ⟨ccw h, gen M h h ?_ hf⟩
    exact hr.2

/-- Neighbours in the list are neighbours. -/
theorem ring_infix {nb : Half → Nbrs} {X Y : List Half} {a b : Half} (h : Ring nb (X ++ a :: b :: Y)) : Link nb a b := by
  have := h.chain
  rw [List.isChain_append, List.isChain_cons_cons] at this
  exact this.2.1.1

/-- The last is followed by the first. -/
theorem ring_wrap {nb : Half → Nbrs} {X : List Half} {a b : Half} (h : Ring nb (X ++ [a])) (hb : (X ++ [a]).head? = some b) :
    Link nb a b := by
  have := h.2
  rw [hb] at this
  have e : X ++ [a] ++ (some b).toList = X ++ a :: b :: [] := by simp
  rw [e, List.isChain_append, List.isChain_cons_cons] at this
  exact this.2.1.1

end Verif.Merge
