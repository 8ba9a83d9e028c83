import Verif.Merge.Model

/-! Deleting a segment from the circular lists. -/

namespace Verif.Merge
open Verif.Topo
set_option linter.unusedSectionVars false

variable {K : Type} [LinearOrder K] {W : Type} [AddCommGroup W] [DecidableEq W]

/-- The parts of the topology that merging does not touch. -/
structure Same (t t' : Topo K W) : Prop where
  n : t'.n = t.n
  points : t'.points = t.points
  pointIdx : t'.pointIdx = t.pointIdx
  scanWest : t'.scanWest = t.scanWest
  origSeg : t'.origSeg = t.origSeg
  positive : t'.positive = t.positive
  scanEast : t'.scanEast = t.scanEast
  scanAfter : t'.scanAfter = t.scanAfter

theorem Same.refl (t : Topo K W) : Same t t := ⟨rfl, rfl, rfl, rfl, rfl, rfl, rfl, rfl⟩
theorem Same.trans {t t' t'' : Topo K W} (h : Same t t') (h' : Same t' t'') : Same t t'' :=
  ⟨h'.n.trans h.n, h'.points.trans h.points, h'.pointIdx.trans h.pointIdx, h'.scanWest.trans h.scanWest,
    h'.origSeg.trans h.origSeg, h'.positive.trans h.positive, h'.scanEast.trans h.scanEast, h'.scanAfter.trans h.scanAfter⟩

theorem same_delete (t : Topo K W) (i : Nat) : Same t (t.delete i) := ⟨rfl, rfl, rfl, rfl, rfl, rfl, rfl, rfl⟩

theorem same_mergeInto (t : Topo K W) (i c : Nat) : Same t (mergeInto t i c) := by
  unfold mergeInto
  dsimp only
  split <;> exact ⟨rfl, rfl, rfl, rfl, rfl, rfl, rfl, rfl⟩

/-- The half-segments at each point. -/
structure Geo (t : Topo K W) (L : Nat → List Half) : Prop where
  nodup : ∀ p < t.points.length, (L p).Nodup
  mem : ∀ p < t.points.length, ∀ h, h ∈ L p ↔ t.pointIdx h = some p
  pts : ∀ i < t.n, ∃ p q, t.pointIdx ⟨i, true⟩ = some p ∧ t.pointIdx ⟨i, false⟩ = some q ∧ p < q
  lt : ∀ h p, t.pointIdx h = some p → p < t.points.length ∧ h.idx < t.n

theorem Geo.same {t t' : Topo K W} {L : Nat → List Half} (h : Geo t L) (s : Same t t') : Geo t' L := by
  obtain ⟨s1, s2, s3, _, _, _⟩ := s
  exact ⟨by rw [s2]; exact h.nodup, by rw [s2, s3]; exact h.mem, by rw [s1, s3]; exact h.pts,
    by rw [s1, s2, s3]; exact h.lt⟩

/-- Not deleted. -/
def live (t : Topo K W) (h : Half) : Bool := !t.deleted h.idx

def Rings (t : Topo K W) (L : Nat → List Half) : Prop :=
  ∀ p < t.points.length, Ring t.nb ((L p).filter (live t))

/-- The windings around each point fit together. -/
def Fit (t : Topo K W) (L : Nat → List Half) : Prop :=
  ∀ p < t.points.length, ∀ h ∈ (L p).filter (live t), t.windingCw h = t.windingCcw (t.nb h).cw

theorem deleteHalf_nb (t : Topo K W) (h a : Half) : (t.deleteHalf h).nb a =
    ⟨if a = (t.nb h).ccw then (t.nb h).cw else (t.nb a).cw, if a = (t.nb h).cw then (t.nb h).ccw else (t.nb a).ccw⟩ := by
  unfold Topo.deleteHalf Verif.Topo.set
  dsimp only
  generalize (t.nb h).ccw = u
  generalize (t.nb h).cw = v
  by_cases q1 : a = u
  · subst q1
    by_cases q2 : a = v <;> simp [q2]
  · by_cases q2 : a = v
    · subst q2; simp [q1]
    · simp [q1, q2]

theorem delete_deleted (t : Topo K W) (i j : Nat) : (t.delete i).deleted j = if j = i then true else t.deleted j := rfl
theorem delete_winding (t : Topo K W) (i : Nat) : (t.delete i).winding = t.winding := rfl

theorem delete_rings {t : Topo K W} {L : Nat → List Half} (G : Geo t L) (hR : Rings t L) (i : Nat) (hi : i < t.n)
    (hl : t.deleted i = false) : Rings (t.delete i) L := by
  obtain ⟨p, q, hp, hq, hpq⟩ := G.pts i hi
  have hpl := (G.lt _ _ hp).1
  have hql := (G.lt _ _ hq).1
  have memF : ∀ r < t.points.length, ∀ h, h ∈ (L r).filter (live t) ↔ t.pointIdx h = some r ∧ t.deleted h.idx = false := by
    intro r hr h
    rw [List.mem_filter, G.mem r hr]; simp [live]
  have R1 := hR p hpl
  have R2 := hR q hql
  have m1 : (⟨i, true⟩ : Half) ∈ (L p).filter (live t) := (memF p hpl _).2 ⟨hp, hl⟩
  have m2 : (⟨i, false⟩ : Half) ∈ (L q).filter (live t) := (memF q hql _).2 ⟨hq, hl⟩
  let t0 : Topo K W := { t with deleted := set t.deleted i true }
  obtain ⟨d1, d2, _⟩ := deleteHalf_spec t0 ⟨i, true⟩ _ R1 m1
  have disj : ∀ r s, r < t.points.length → s < t.points.length → r ≠ s → ∀ a ∈ (L r).filter (live t), a ∉ (L s).filter (live t) := by
    intro r s hr hs hrs a ha hb
    have h1 := ((memF r hr a).1 ha).1
    have h2 := ((memF s hs a).1 hb).1
    rw [h1] at h2
    exact hrs (by simpa using h2)
  have R2' : Ring (t0.deleteHalf ⟨i, true⟩).nb ((L q).filter (live t)) :=
    R2.congr (fun a ha => d2 a (disj q p hql hpl (by omega) a ha))
  obtain ⟨e1, e2, _⟩ := deleteHalf_spec (t0.deleteHalf ⟨i, true⟩) ⟨i, false⟩ _ R2' m2
  have hf : ∀ r, (L r).filter (live (t.delete i)) = ((L r).filter (live t)).filter fun h => decide (h.idx ≠ i) := by
    intro r
    rw [List.filter_filter]
    apply List.filter_congr
    intro h _
    unfold live
    rw [delete_deleted]
    by_cases hh : h.idx = i <;> simp [hh]
  have her : ∀ r < t.points.length, ∀ b, t.pointIdx ⟨i, b⟩ = some r → t.pointIdx ⟨i, !b⟩ ≠ some r →
      ((L r).filter (live t)).erase ⟨i, b⟩ = (L r).filter (live (t.delete i)) := by
    intro r hr b hb hnb
    rw [hf r, List.Nodup.erase_eq_filter ((G.nodup r hr).filter _)]
    apply List.filter_congr
    intro h hm
    have hh := ((memF r hr h).1 hm).1
    obtain ⟨j, c⟩ := h
    by_cases hj : j = i
    · subst hj
      have hcb : c = b := by
        by_contra hc
        have : c = !b := Bool.eq_not_iff.2 hc
        rw [this] at hh; exact hnb hh
      subst hcb; simp
    · have : (⟨j, c⟩ : Half) ≠ ⟨i, b⟩ := by simp [hj]
      simp [hj]
  intro r hr
  have hr : r < t.points.length := hr
  by_cases hrp : r = p
  · subst hrp
    rw [← her r hr true hp (by simp [hq]; omega)]
    exact d1.congr (fun a ha => e2 a (disj r q hr hql (by omega) a (List.mem_of_mem_erase ha)))
  · by_cases hrq : r = q
    · subst hrq
      rw [← her r hr false hq (by simp [hp]; omega)]
      exact e1
    · have : (L r).filter (live (t.delete i)) = (L r).filter (live t) := by
        rw [hf r, List.filter_eq_self]
        intro h hm
        have hh := ((memF r hr h).1 hm).1
        obtain ⟨j, c⟩ := h
        have : j ≠ i := by
          rintro rfl
          cases c
          · rw [hq] at hh; exact hrq (by simpa using hh.symm)
          · rw [hp] at hh; exact hrp (by simpa using hh.symm)
        simpa using this
      rw [this]
      exact (hR r hr).congr (fun a ha => by
        show ((t0.deleteHalf ⟨i, true⟩).deleteHalf ⟨i, false⟩).nb a = t.nb a
        rw [e2 a (disj r q hr hql hrq a ha), d2 a (disj r p hr hpl hrp a ha)])

/-- The neighbours of a half-segment that is still there. -/
theorem nbr_live {t : Topo K W} {L : Nat → List Half} (G : Geo t L) (hR : Rings t L) (h : Half) (p : Nat)
    (hp : t.pointIdx h = some p) (hl : t.deleted h.idx = false) :
    (t.pointIdx (t.nb h).cw = some p ∧ t.deleted (t.nb h).cw.idx = false ∧ (t.nb (t.nb h).cw).ccw = h) ∧
    (t.pointIdx (t.nb h).ccw = some p ∧ t.deleted (t.nb h).ccw.idx = false ∧ (t.nb (t.nb h).ccw).cw = h) := by
  have hpl := (G.lt _ _ hp).1
  have hm : h ∈ (L p).filter (live t) := by
    rw [List.mem_filter, G.mem p hpl]; exact ⟨hp, by simp [live, hl]⟩
  have back : ∀ a ∈ (L p).filter (live t), t.pointIdx a = some p ∧ t.deleted a.idx = false := by
    intro a ha
    rw [List.mem_filter, G.mem p hpl] at ha
    exact ⟨ha.1, by simpa [live] using ha.2⟩
  obtain ⟨c1, c2⟩ := (hR p hpl).cw hm
  obtain ⟨c3, c4⟩ := (hR p hpl).ccw hm
  exact ⟨⟨(back _ c1).1, (back _ c1).2, c2⟩, (back _ c3).1, (back _ c3).2, c4⟩

/-- How deleting a segment changes the clockwise neighbours of the others. -/
theorem delete_cw {t : Topo K W} {L : Nat → List Half} (G : Geo t L) (hR : Rings t L) (i : Nat) (hi : i < t.n)
    (hl : t.deleted i = false) (h : Half) (r : Nat) (hr : t.pointIdx h = some r) (hh : t.deleted h.idx = false) :
    ((t.delete i).nb h).cw = if (t.nb h).cw.idx = i then (t.nb (t.nb h).cw).cw else (t.nb h).cw := by
  obtain ⟨p, q, hp, hq, hpq⟩ := G.pts i hi
  obtain ⟨⟨a1, a2, a3⟩, ⟨a4, a5, a6⟩⟩ := nbr_live G hR ⟨i, true⟩ p hp hl
  obtain ⟨⟨b1, b2, b3⟩, ⟨b4, b5, b6⟩⟩ := nbr_live G hR ⟨i, false⟩ q hq hl
  obtain ⟨⟨c1, c2, c3⟩, ⟨c4, c5, c6⟩⟩ := nbr_live G hR h r hr hh
  have hpne : ∀ a b : Half, t.pointIdx a = some p → t.pointIdx b = some q → a ≠ b := by
    rintro a b ha hb rfl
    rw [ha] at hb; simp at hb; omega
  let t0 : Topo K W := { t with deleted := set t.deleted i true }
  show ((((t0.deleteHalf ⟨i, true⟩).deleteHalf ⟨i, false⟩).nb h).cw) = _
  rw [deleteHalf_nb, deleteHalf_nb t0 ⟨i, true⟩ ⟨i, false⟩, deleteHalf_nb t0 ⟨i, true⟩ h]
  have e1 : (⟨i, false⟩ : Half) ≠ (t0.nb ⟨i, true⟩).ccw := (hpne _ _ a4 hq).symm
  have e2 : (⟨i, false⟩ : Half) ≠ (t0.nb ⟨i, true⟩).cw := (hpne _ _ a1 hq).symm
  rw [if_neg e1, if_neg e2]
  show (if h = (t.nb ⟨i, false⟩).ccw then (t.nb ⟨i, false⟩).cw else
    if h = (t.nb ⟨i, true⟩).ccw then (t.nb ⟨i, true⟩).cw else (t.nb h).cw) = _
  by_cases g1 : h = (t.nb ⟨i, false⟩).ccw
  · have : (t.nb h).cw = ⟨i, false⟩ := by rw [g1]; exact b6
    rw [if_pos g1, this]; simp
  · rw [if_neg g1]
    by_cases g2 : h = (t.nb ⟨i, true⟩).ccw
    · have : (t.nb h).cw = ⟨i, true⟩ := by rw [g2]; exact a6
      rw [if_pos g2, this]; simp
    · rw [if_neg g2, if_neg]
      intro hc
      cases hf : (t.nb h).cw.first
      · have : (t.nb h).cw = ⟨i, false⟩ := by rw [← hc, ← hf]
        rw [this] at c3; exact g1 c3.symm
      · have : (t.nb h).cw = ⟨i, true⟩ := by rw [← hc, ← hf]
        rw [this] at c3; exact g2 c3.symm

/-- Deleting a segment twice does no more than deleting it once. -/
theorem delete_delete {t : Topo K W} {L : Nat → List Half} (G : Geo t L) (hR : Rings t L) (i : Nat) (hi : i < t.n)
    (hl : t.deleted i = false) : ((t.delete i).delete i).nb = (t.delete i).nb := by
  obtain ⟨p, q, hp, hq, hpq⟩ := G.pts i hi
  obtain ⟨⟨a1, _, _⟩, ⟨a4, _, _⟩⟩ := nbr_live G hR ⟨i, true⟩ p hp hl
  obtain ⟨⟨b1, _, _⟩, ⟨b4, _, _⟩⟩ := nbr_live G hR ⟨i, false⟩ q hq hl
  have hpne : ∀ a b : Half, t.pointIdx a = some p → t.pointIdx b = some q → a ≠ b := by
    rintro a b ha hb rfl
    rw [ha] at hb; simp at hb; omega
  let t0 : Topo K W := { t with deleted := set t.deleted i true }
  have e1 : (⟨i, false⟩ : Half) ≠ (t.nb ⟨i, true⟩).ccw := (hpne _ _ a4 hq).symm
  have e2 : (⟨i, false⟩ : Half) ≠ (t.nb ⟨i, true⟩).cw := (hpne _ _ a1 hq).symm
  -- the first deletion
  have f : ∀ a, (t.delete i).nb a =
      ⟨if a = (t.nb ⟨i, false⟩).ccw then (t.nb ⟨i, false⟩).cw else
        if a = (t.nb ⟨i, true⟩).ccw then (t.nb ⟨i, true⟩).cw else (t.nb a).cw,
       if a = (t.nb ⟨i, false⟩).cw then (t.nb ⟨i, false⟩).ccw else
        if a = (t.nb ⟨i, true⟩).cw then (t.nb ⟨i, true⟩).ccw else (t.nb a).ccw⟩ := by
    intro a
    show ((t0.deleteHalf ⟨i, true⟩).deleteHalf ⟨i, false⟩).nb a = _
    rw [deleteHalf_nb, deleteHalf_nb t0 ⟨i, true⟩ ⟨i, false⟩, deleteHalf_nb t0 ⟨i, true⟩ a]
    have e1' : (⟨i, false⟩ : Half) ≠ (t0.nb ⟨i, true⟩).ccw := e1
    have e2' : (⟨i, false⟩ : Half) ≠ (t0.nb ⟨i, true⟩).cw := e2
    rw [if_neg e1', if_neg e2']
  have fs : (t.delete i).nb ⟨i, true⟩ = t.nb ⟨i, true⟩ := by
    rw [f, if_neg (hpne _ _ hp b4), if_neg (hpne _ _ hp b1)]
    cases hn : t.nb ⟨i, true⟩
    simp
  have fe : (t.delete i).nb ⟨i, false⟩ = t.nb ⟨i, false⟩ := by
    rw [f, if_neg e1, if_neg e2]
    cases hn : t.nb ⟨i, false⟩
    simp
  let u : Topo K W := { t.delete i with deleted := set (t.delete i).deleted i true }
  funext a
  show ((u.deleteHalf ⟨i, true⟩).deleteHalf ⟨i, false⟩).nb a = _
  have hu : u.nb = (t.delete i).nb := rfl
  have g1 : (u.deleteHalf ⟨i, true⟩).nb = (t.delete i).nb := by
    funext b
    rw [deleteHalf_nb, hu, fs, f b]
    congr 1
    · by_cases q1 : b = (t.nb ⟨i, true⟩).ccw
      · rw [if_pos q1, if_neg (by rw [q1]; exact hpne _ _ a4 b4), if_pos q1]
      · rw [if_neg q1]
    · by_cases q1 : b = (t.nb ⟨i, true⟩).cw
      · rw [if_pos q1, if_neg (by rw [q1]; exact hpne _ _ a1 b1), if_pos q1]
      · rw [if_neg q1]
  rw [deleteHalf_nb, g1, fe, f a]
  congr 1
  · by_cases q1 : a = (t.nb ⟨i, false⟩).ccw <;> simp [q1]
  · by_cases q1 : a = (t.nb ⟨i, false⟩).cw <;> simp [q1]

/-- Deleting a segment across which nothing changes preserves the fit. -/
theorem delete_fit {t : Topo K W} {L : Nat → List Half} (G : Geo t L) (hR : Rings t L) (hF : Fit t L) (i : Nat)
    (hi : i < t.n) (hl : t.deleted i = false) (htriv : (t.winding i).cw = (t.winding i).ccw) : Fit (t.delete i) L := by
  have tr : ∀ b, t.windingCw ⟨i, b⟩ = t.windingCcw ⟨i, b⟩ := by
    intro b
    cases b <;> simp [Topo.windingCw, Topo.windingCcw, htriv]
  intro p hp h hm
  have hp : p < t.points.length := hp
  rw [List.mem_filter, G.mem p hp] at hm
  obtain ⟨h1, h2⟩ := hm
  have hne : h.idx ≠ i := by
    intro hc; simp [live, delete_deleted, hc] at h2
  have hd : t.deleted h.idx = false := by
    simpa [live, delete_deleted, hne] using h2
  have inF : ∀ a, t.pointIdx a = some p → t.deleted a.idx = false → t.windingCw a = t.windingCcw (t.nb a).cw := by
    intro a ha hda
    exact hF p hp a (by rw [List.mem_filter, G.mem p hp]; exact ⟨ha, by simp [live, hda]⟩)
  show t.windingCw h = t.windingCcw ((t.delete i).nb h).cw
  rw [delete_cw G hR i hi hl h p h1 hd]
  obtain ⟨⟨c1, c2, c3⟩, _⟩ := nbr_live G hR h p h1 hd
  by_cases hc : (t.nb h).cw.idx = i
  · rw [if_pos hc, inF h h1 hd, ← inF _ c1 c2]
    have := tr (t.nb h).cw.first
    rw [← hc] at this
    exact this.symm
  · rw [if_neg hc]; exact inF h h1 hd

end Verif.Merge
