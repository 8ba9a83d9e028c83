import Verif.Contours.Walk

/-! The loop over the output segments. -/

namespace Verif.Contours
open Verif.Topo

variable {K : Type} {W : Type} {t : Topo K W} {inside : W → Bool}

theorem scanBdy_spec (hc : Consistent t) (f : Nat) : ∀ o b, b ≤ t.n → b < f → (∀ j, o = some j → j < b) →
    ∃ w, scanBdy t inside f o = some w ∧ BdyWest t inside o w ∧
      ∀ j, w = some j → j < b ∧ t.deleted j = false ∧ bdy t inside j = true := by
  induction f with
  | zero => intro o b _ h; omega
  | succ f ih =>
    intro o b hbn hb ho
    cases o with
    | none => exact ⟨none, rfl, .none, by simp⟩
    | some j =>
      have hj := ho j rfl
      unfold scanBdy
      by_cases hskip : (t.deleted j || !bdy t inside j) = true
      · rw [if_pos hskip]
        obtain ⟨w, h1, h2, h3⟩ := ih (t.scanWest j) j (by omega) (by omega) (hc.west j (by omega))
        refine ⟨w, h1, .skip j w ?_ h2, fun i hi => ⟨by have := (h3 i hi).1; omega, (h3 i hi).2⟩⟩
        rw [Bool.or_eq_true] at hskip
        rcases hskip with h | h
        · exact .inl h
        · right; unfold bdy at h; simpa using h
      · rw [if_neg hskip]
        simp only [Bool.or_eq_true, not_or, Bool.not_eq_true, Bool.not_eq_false'] at hskip
        refine ⟨some j, rfl, .live j hskip.1 ?_, ?_⟩
        · have := hskip.2; unfold bdy at this; simpa using this
        · intro i hi
          have : j = i := by simpa using hi
          subst this; exact ⟨hj, hskip.1, hskip.2⟩

/-- All segments of all contours. -/
def allSegs (cs : List Contour) : List Half := cs.flatMap Contour.path

/-- Another contour visits a point that `C` visits. -/
def Touches (t : Topo K W) (cs : List Contour) (c : Nat) (C : Contour) : Prop :=
  ∃ (c' : Nat) (C' : Contour), c' ≠ c ∧ cs[c']? = some C' ∧ ∃ h ∈ C.path, ∃ h' ∈ C'.path, t.pointIdx h.other = t.pointIdx h'.other

/-- The parent and orientation are determined by the boundary segment to the left of the first segment. -/
def Labelled (t : Topo K W) (inside : W → Bool) (cs : List Contour) (C : Contour) (i : Nat) : Prop :=
  ∃ w, BdyWest t inside (t.scanWest i) w ∧
    (w = none → C.parent = none ∧ C.outer = true) ∧
    ∀ j, w = some j → ∃ (d : Nat) (D : Contour) (h : Half), cs[d]? = some D ∧ h ∈ D.path ∧ h.idx = j ∧
      C.outer = !inside (t.winding j).ccw ∧ C.parent = if C.outer = D.outer then D.parent else some d

structure CInv (t : Topo K W) (inside : W → Bool) (k : Nat) (st : CState) : Prop where
  vis : ∀ i, st.visited i = true ↔ ∃ h ∈ allSegs st.contours, h.idx = i
  ends : ∀ h ∈ allSegs st.contours, IsEnd t inside h
  nodup : (allSegs st.contours).Nodup
  done : ∀ i < k, i < t.n → t.deleted i = false → bdy t inside i = true → st.visited i = true
  orbit : ∀ h ∈ allSegs st.contours, nextEnd t inside h ∈ allSegs st.contours
  segC : ∀ (c : Nat) (C : Contour), st.contours[c]? = some C → ∀ h ∈ C.path, st.segContour h.idx = some c
  good : ∀ C ∈ st.contours, Closed t C.path ∧ (C.path.map fun x => t.pointIdx x.other).Nodup
  top : ∀ (c : Nat) (C : Contour), st.contours[c]? = some C → C.parent = none → C.outer = true
  tree : ∀ (c : Nat) (C : Contour) (p : Nat), st.contours[c]? = some C → C.parent = some p → p < c ∧ ∃ P : Contour, st.contours[p]? = some P ∧ C.outer = !P.outer
  label : ∀ (c : Nat) (C : Contour), st.contours[c]? = some C → Touches t st.contours c C ∨
    ∃ h ∈ C.path, (∀ h' ∈ C.path, (h : Half).idx ≤ h'.idx) ∧ Labelled t inside st.contours C h.idx

theorem cinv_init : CInv t inside 0 ⟨[], fun _ => none, fun _ => false, fun _ => none⟩ := by
  constructor <;> simp [allSegs]

theorem CInv.mono {k : Nat} {st : CState} (h : CInv t inside k st)
    (hk : k < t.n → t.deleted k = false → bdy t inside k = true → st.visited k = true) :
    CInv t inside (k + 1) st := by
  refine { h with done := ?_ }
  intro i hi
  rcases Nat.lt_or_ge i k with q | q
  · exact h.done i q
  · have : i = k := by omega
    subst this; exact hk

/-- The parent and orientation of a new contour. -/
structure NewOk (t : Topo K W) (inside : W → Bool) (cs : List Contour) (idx : Nat) (C : Contour) : Prop where
  path : C.path = []
  top : C.parent = none → C.outer = true
  tree : ∀ p, C.parent = some p → ∃ P : Contour, cs[p]? = some P ∧ C.outer = !P.outer
  lab : Labelled t inside cs C idx

theorem newContour_spec (hc : Consistent t) {k : Nat} {st : CState} (inv : CInv t inside k st) (hk : k < t.n)
    (fuel : Nat) (hf : 2 * t.n < fuel) :
    ∃ C, newContour t inside fuel st k = some C ∧ NewOk t inside st.contours k C := by
  obtain ⟨w, h1, h2, h3⟩ := scanBdy_spec (inside := inside) hc fuel (t.scanWest k) k (by omega) (by omega) (hc.west k hk)
  unfold newContour
  rw [h1]
  cases w with
  | none =>
    refine ⟨Contour.default, rfl, rfl, fun _ => rfl, by simp [Contour.default], none, h2, fun _ => ⟨rfl, rfl⟩, by simp⟩
  | some j =>
    obtain ⟨j1, j2, j3⟩ := h3 j rfl
    have hv := inv.done j j1 (by omega) j2 j3
    obtain ⟨h, hh1, hh2⟩ := (inv.vis j).1 hv
    unfold allSegs at hh1
    rw [List.mem_flatMap] at hh1
    obtain ⟨D, hD1, hD2⟩ := hh1
    obtain ⟨d, hd⟩ := List.mem_iff_getElem?.1 hD1
    have hs := inv.segC d D hd h hD2
    rw [hh2] at hs
    simp only [hs, hd]
    have hcc : t.windingCcw ⟨j, true⟩ = (t.winding j).ccw := by simp [Topo.windingCcw]
    rw [hcc]
    by_cases hout : (!inside (t.winding j).ccw) = D.outer
    · have hb : ((!inside (t.winding j).ccw) == D.outer) = true := by rw [hout]; simp
      rw [if_pos hb]
      have hp : ((!inside (t.winding j).ccw) || D.parent.isSome) = true := by
        rw [hout]
        cases hpp : D.parent with
        | none => rw [inv.top d D hd hpp]; rfl
        | some p => simp
      rw [if_pos hp]
      refine ⟨_, rfl, rfl, ?_, ?_, some j, h2, by simp, ?_⟩
      · intro h; simp only at h ⊢; rw [hout]; exact inv.top d D hd h
      · intro p h
        simp only at h ⊢
        obtain ⟨_, P, hP, ho⟩ := inv.tree d D p hd h
        exact ⟨P, hP, by rw [hout]; exact ho⟩
      · intro i hi
        have : j = i := by simpa using hi
        subst this
        exact ⟨d, D, h, hd, hD2, hh2, rfl, by simp only; rw [if_pos hout]⟩
    · have hb : ¬ ((!inside (t.winding j).ccw) == D.outer) = true := by simpa using hout
      rw [if_neg hb]
      have hne : (!D.outer) = !inside (t.winding j).ccw := by
        revert hout; cases D.outer <;> cases inside (t.winding j).ccw <;> simp
      refine ⟨_, rfl, rfl, by simp, ?_, some j, h2, by simp, ?_⟩
      · intro p h
        have : d = p := by simpa using h
        subst this
        exact ⟨D, hd, rfl⟩
      · intro i hi
        have : j = i := by simpa using hi
        subst this
        refine ⟨d, D, h, hd, hD2, hh2, hne, ?_⟩
        simp only
        rw [if_neg]
        cases D.outer <;> simp

/-- Looking up in `old ++ [X] ++ loops`. -/
theorem getElem?_three {α : Type} (old : List α) (X : α) (ls : List α) (c : Nat) (C : α)
    (h : (old ++ [X] ++ ls)[c]? = some C) :
    (c < old.length ∧ old[c]? = some C) ∨ (c = old.length ∧ C = X) ∨
    ∃ a, c = old.length + 1 + a ∧ ls[a]? = some C := by
  rcases Nat.lt_trichotomy c old.length with q | q | q
  · left
    rw [List.append_assoc, List.getElem?_append_left q] at h
    exact ⟨q, h⟩
  · right; left
    subst q
    rw [List.append_assoc, List.getElem?_append_right (le_refl _)] at h
    simp at h
    exact ⟨rfl, h.symm⟩
  · right; right
    refine ⟨c - (old.length + 1), by omega, ?_⟩
    rw [List.getElem?_append_right (by simp; omega)] at h
    simpa using h

theorem contourAt_spec (hc : Consistent t) {k : Nat} {st : CState} (inv : CInv t inside k st) (hk : k < t.n)
    (hdel : t.deleted k = false) (fuel : Nat) (hf : 2 * t.n < fuel) :
    ∃ st', contourAt t inside fuel st k = some st' ∧ CInv t inside (k + 1) st' := by
  unfold contourAt
  by_cases hv : st.visited k = true
  · rw [if_pos hv]; exact ⟨st, rfl, inv.mono fun _ _ _ => hv⟩
  rw [if_neg hv]
  by_cases hb : bdy t inside k = true
  swap
  · have : (!bdy t inside k) = true := by simpa using hb
    rw [if_pos this]; exact ⟨st, rfl, inv.mono fun _ _ h => absurd h hb⟩
  have hb' : ¬ (!bdy t inside k) = true := by simp [hb]
  rw [if_neg hb']
  obtain ⟨C, hC, hnew⟩ := newContour_spec hc inv hk fuel hf
  simp only [hC]
  have he0 := bdy_isEnd hk hdel hb
  generalize hE : (if inside (t.winding k).ccw then (⟨k, false⟩ : Half) else ⟨k, true⟩) = e0 at he0
  have hidx : e0.idx = k := by rw [← hE]; split <;> rfl
  have hstart : (if inside (t.winding k).ccw then (⟨k, true⟩ : Half) else ⟨k, false⟩) = e0.other := by
    rw [← hE]; split <;> rfl
  rw [hstart]
  obtain ⟨p, hp⟩ := hc.pt e0.other he0.1
  have hins : (!inside (t.windingCcw e0.other)) = false := by rw [windingCcw_other, he0.2.1]; rfl
  simp only [hp, hins, Bool.false_eq_true, if_false, other_other]
  obtain ⟨m, m1, m2, m3, m4⟩ := walk_orbit hc he0
  -- nothing on the walk was visited before
  have hfresh : ∀ i < m, en t inside e0 i ∉ allSegs st.contours := by
    intro i hi hmem
    have fwd : ∀ d, en t inside e0 (i + d) ∈ allSegs st.contours := by
      intro d
      induction d with
      | zero => exact hmem
      | succ d ih =>
        have : i + (d + 1) = (i + d) + 1 := by omega
        rw [this, en_succ]; exact inv.orbit _ ih
    have := fwd (m - i)
    have e : i + (m - i) = m := by omega
    rw [e] at this
    unfold en at this
    rw [m3] at this
    exact hv ((inv.vis k).2 ⟨e0, this, hidx⟩)
  have hw := walk_spec hc { st with contours := st.contours ++ [C], lastVisit := Topo.set st.lastVisit p (some 0) }
    st.contours.length C (by simp) e0 he0 m m3 m4 fuel (by omega) fuel 0 [] []
    { st with contours := st.contours ++ [C], lastVisit := Topo.set st.lastVisit p (some 0) } (by omega) (by omega) (by
      refine { vis := ?_, contours := by simp, perm := by simp, segOld := fun _ _ => rfl, segNew := by simp,
               good := by simp, chain := by simp, headpt := ?_, lv := ?_, touch := by simp }
      · intro j; simp
      · intro x hx
        have : en t inside e0 0 = x := by simpa using hx
        rw [← this]; rfl
      · intro i x hx
        have hi := (List.getElem?_eq_some_iff.1 hx).1
        simp at hi
        subst hi
        have : en t inside e0 0 = x := by simpa using hx
        rw [← this]
        exact ⟨p, hp, by simp [Topo.set]⟩)
  obtain ⟨loops, segs, st', hrun, res⟩ := hw
  have e00 : en t inside e0 0 = e0 := rfl
  rw [e00] at hrun
  rw [hrun]
  refine ⟨_, rfl, ?_⟩
  have rvis := res.vis
  have rcont := res.contours
  have rnew := res.segNew
  have rold := res.segOld
  simp only [List.length_append, List.length_singleton] at rvis rcont rnew rold
  -- the contours at the end
  have hcs : (st'.contours.modify st.contours.length fun c => { c with path := segs }) =
      st.contours ++ [{ C with path := segs }] ++ loops.map fun l => ⟨l, some st.contours.length, !C.outer⟩ := by
    rw [rcont]
    apply List.ext_getElem?
    intro i
    rw [List.getElem?_modify]
    by_cases hi : st.contours.length = i
    · subst hi
      simp
    · simp only [hi, if_false, id_eq, Option.map_eq_map, Option.map_id_fun']
      rcases Nat.lt_or_gt_of_ne hi with q | q
      · rw [List.getElem?_append_right (by simp; omega), List.getElem?_append_right (by simp; omega)]
        simp
      · rw [List.append_assoc, List.append_assoc, List.getElem?_append_left q, List.getElem?_append_left q]
  rw [hcs]
  generalize hX : ({ C with path := segs } : Contour) = X
  have hXp : X.path = segs := by rw [← hX]
  have hXo : X.outer = C.outer := by rw [← hX]
  have hXpar : X.parent = C.parent := by rw [← hX]
  have hall : (allSegs (st.contours ++ [X] ++ loops.map fun l => ⟨l, some st.contours.length, !C.outer⟩)).Perm
      (allSegs st.contours ++ (List.range m).map (en t inside e0)) := by
    unfold allSegs
    rw [List.flatMap_append, List.flatMap_append, List.append_assoc]
    apply List.Perm.append_left
    refine List.perm_append_comm.trans ?_
    refine List.Perm.trans ?_ res.perm
    simp only [List.flatMap_cons, List.flatMap_nil, List.append_nil, hXp]
    apply List.Perm.append_right
    rw [List.flatMap_def, List.map_map]
    have : (Contour.path ∘ fun l => (⟨l, some st.contours.length, !C.outer⟩ : Contour)) = id := rfl
    rw [this, List.map_id]
  have hwalk_nd : ((List.range m).map (en t inside e0)).Nodup := by
    apply List.Nodup.map_on _ List.nodup_range
    intro a ha b hb hab
    rw [List.mem_range] at ha hb
    by_contra hne
    rcases Nat.lt_or_gt_of_ne hne with q | q
    · exact m4 a b q hb hab
    · exact m4 b a q ha hab.symm
  have hrest_nd : (loops.flatten ++ segs).Nodup := res.perm.nodup_iff.2 hwalk_nd
  have hmemwalk : ∀ x, x ∈ loops.flatten ++ segs ↔ ∃ i < m, en t inside e0 i = x := by
    intro x
    rw [res.perm.mem_iff, List.mem_map]
    simp only [List.mem_range]
  have hwend : ∀ x, x ∈ loops.flatten ++ segs → IsEnd t inside x := by
    intro x hx
    obtain ⟨i, _, rfl⟩ := (hmemwalk x).1 hx
    exact en_isEnd hc he0 i
  -- `seg_contour` is not disturbed on old segments
  have segold : ∀ h ∈ allSegs st.contours, setAll st'.segContour segs st.contours.length h.idx = st.segContour h.idx := by
    intro h hh
    have hd : ∀ x ∈ loops.flatten ++ segs, x.idx ≠ h.idx := by
      intro x hx hxe
      have := isEnd_unique (hwend x hx) (inv.ends h hh) hxe
      subst this
      obtain ⟨i, hi, rfl⟩ := (hmemwalk x).1 hx
      exact hfresh i hi hh
    rw [setAll_eq, if_neg]
    · apply rold
      intro l hl x hx
      exact hd x (List.mem_append_left _ (List.mem_flatten.2 ⟨l, hl, hx⟩))
    · intro hm'
      obtain ⟨x, hx, hxe⟩ := List.mem_map.1 hm'
      exact hd x (List.mem_append_right _ hx) hxe
  -- lookups
  have get_old : ∀ (c : Nat) (D : Contour), st.contours[c]? = some D →
      (st.contours ++ [X] ++ loops.map fun l => (⟨l, some st.contours.length, !C.outer⟩ : Contour))[c]? = some D := by
    intro c D h
    rw [List.append_assoc, List.getElem?_append_left (List.getElem?_eq_some_iff.1 h).1]; exact h
  have get_X : (st.contours ++ [X] ++ loops.map fun l => (⟨l, some st.contours.length, !C.outer⟩ : Contour))[st.contours.length]? = some X := by
    rw [List.append_assoc, List.getElem?_append_right (le_refl _)]; simp
  have get_loop : ∀ (a : Nat) (l : List Half), loops[a]? = some l →
      (st.contours ++ [X] ++ loops.map fun l => (⟨l, some st.contours.length, !C.outer⟩ : Contour))[st.contours.length + 1 + a]? =
        some ⟨l, some st.contours.length, !C.outer⟩ := by
    intro a l h
    rw [List.getElem?_append_right (by simp)]
    simp [h]
  -- every end of the walk is in a contour
  have get_en : ∀ i < m, ∃ (c : Nat) (D : Contour),
      (st.contours ++ [X] ++ loops.map fun l => (⟨l, some st.contours.length, !C.outer⟩ : Contour))[c]? = some D ∧
      en t inside e0 i ∈ D.path := by
    intro i hi
    have := (hmemwalk _).2 ⟨i, hi, rfl⟩
    rw [List.mem_append, List.mem_flatten] at this
    rcases this with ⟨l, hl, hx⟩ | hx
    · obtain ⟨a, ha⟩ := List.mem_iff_getElem?.1 hl
      exact ⟨_, _, get_loop a l ha, hx⟩
    · exact ⟨_, X, get_X, by rw [hXp]; exact hx⟩
  constructor
  case vis =>
    intro i
    simp only
    rw [rvis, inv.vis]
    constructor
    · rintro (⟨h, h1, h2⟩ | ⟨j, hj, h2⟩)
      · exact ⟨h, hall.mem_iff.2 (List.mem_append_left _ h1), h2⟩
      · exact ⟨_, hall.mem_iff.2 (List.mem_append_right _ (List.mem_map_of_mem (List.mem_range.2 hj))), h2⟩
    · rintro ⟨h, h1, h2⟩
      rw [hall.mem_iff, List.mem_append, List.mem_map] at h1
      rcases h1 with h1 | ⟨j, hj, rfl⟩
      · exact .inl ⟨h, h1, h2⟩
      · exact .inr ⟨j, List.mem_range.1 hj, h2⟩
  case ends =>
    intro h h1
    simp only at h1
    rw [hall.mem_iff, List.mem_append, List.mem_map] at h1
    rcases h1 with h1 | ⟨j, hj, rfl⟩
    · exact inv.ends h h1
    · exact en_isEnd hc he0 j
  case nodup =>
    simp only
    rw [hall.nodup_iff, List.nodup_append]
    refine ⟨inv.nodup, hwalk_nd, ?_⟩
    intro a ha b hb' hab
    obtain ⟨j, hj, rfl⟩ := List.mem_map.1 hb'
    subst hab
    exact hfresh j (List.mem_range.1 hj) ha
  case done =>
    intro i hi hn hd hbi
    simp only
    rw [rvis]
    rcases Nat.lt_or_ge i k with q | q
    · exact .inl (inv.done i q hn hd hbi)
    · have : i = k := by omega
      subst this
      exact .inr ⟨0, by omega, by rw [e00]; exact hidx⟩
  case orbit =>
    intro h h1
    simp only at h1 ⊢
    rw [hall.mem_iff, List.mem_append, List.mem_map] at h1 ⊢
    rcases h1 with h1 | ⟨j, hj, rfl⟩
    · exact .inl (inv.orbit h h1)
    · right
      rw [← en_succ]
      rw [List.mem_range] at hj
      by_cases hjm : j + 1 < m
      · exact ⟨j + 1, List.mem_range.2 hjm, rfl⟩
      · have : j + 1 = m := by omega
        refine ⟨0, List.mem_range.2 (by omega), ?_⟩
        rw [this]; unfold en; rw [m3]; rfl
  case segC =>
    intro c D hD h hh
    simp only at hD ⊢
    rcases getElem?_three _ _ _ _ _ hD with ⟨_, h2⟩ | ⟨rfl, rfl⟩ | ⟨a, rfl, h2⟩
    · have hmem : h ∈ allSegs st.contours := List.mem_flatMap.2 ⟨D, List.mem_of_getElem? h2, hh⟩
      rw [segold h hmem]
      exact inv.segC c D h2 h hh
    · rw [hXp] at hh
      rw [setAll_eq, if_pos (List.mem_map_of_mem hh)]
    · rw [List.getElem?_map] at h2
      cases hl : loops[a]? with
      | none => rw [hl] at h2; simp at h2
      | some l =>
        rw [hl] at h2
        have hDl : D = ⟨l, some st.contours.length, !C.outer⟩ := by simpa using h2.symm
        rw [hDl] at hh
        simp only at hh
        rw [setAll_eq, if_neg, rnew a l hl h hh]
        intro hm'
        obtain ⟨x, hx, hxe⟩ := List.mem_map.1 hm'
        have hhf : h ∈ loops.flatten := List.mem_flatten.2 ⟨l, List.mem_of_getElem? hl, hh⟩
        have := isEnd_unique (hwend x (List.mem_append_right _ hx)) (hwend h (List.mem_append_left _ hhf)) hxe
        exact (List.nodup_append.1 hrest_nd).2.2 h hhf x hx this.symm
  case good =>
    intro D hD
    simp only at hD
    rw [List.mem_append, List.mem_append, List.mem_singleton, List.mem_map] at hD
    rcases hD with (hD | rfl) | ⟨l, hl, rfl⟩
    · exact inv.good D hD
    · rw [hXp]; exact ⟨res.closed, res.simple⟩
    · exact res.good l hl
  case top =>
    intro c D hD hpar
    simp only at hD
    rcases getElem?_three _ _ _ _ _ hD with ⟨_, h2⟩ | ⟨rfl, rfl⟩ | ⟨a, rfl, h2⟩
    · exact inv.top c D h2 hpar
    · rw [hXo]; rw [hXpar] at hpar; exact hnew.top hpar
    · rw [List.getElem?_map] at h2
      cases hl : loops[a]? with
      | none => rw [hl] at h2; simp at h2
      | some l =>
        rw [hl] at h2
        have hDl : D = ⟨l, some st.contours.length, !C.outer⟩ := by simpa using h2.symm
        rw [hDl] at hpar; simp at hpar
  case tree =>
    intro c D q hD hpar
    simp only at hD ⊢
    rcases getElem?_three _ _ _ _ _ hD with ⟨_, h2⟩ | ⟨rfl, rfl⟩ | ⟨a, rfl, h2⟩
    · obtain ⟨r1, P, r2, r3⟩ := inv.tree c D q h2 hpar
      exact ⟨r1, P, get_old q P r2, r3⟩
    · rw [hXpar] at hpar
      obtain ⟨P, r2, r3⟩ := hnew.tree q hpar
      exact ⟨(List.getElem?_eq_some_iff.1 r2).1, P, get_old q P r2, by rw [hXo]; exact r3⟩
    · rw [List.getElem?_map] at h2
      cases hl : loops[a]? with
      | none => rw [hl] at h2; simp at h2
      | some l =>
        rw [hl] at h2
        have hDl : D = ⟨l, some st.contours.length, !C.outer⟩ := by simpa using h2.symm
        rw [hDl] at hpar
        have hq : st.contours.length = q := by simpa using hpar
        subst hq
        refine ⟨by omega, X, get_X, ?_⟩
        rw [hDl, hXo]
  case label =>
    have lab_mono : ∀ (D : Contour) (i : Nat), Labelled t inside st.contours D i →
        Labelled t inside (st.contours ++ [X] ++ loops.map fun l => (⟨l, some st.contours.length, !C.outer⟩ : Contour)) D i := by
      rintro D i ⟨w, r1, r2, r3⟩
      refine ⟨w, r1, r2, ?_⟩
      intro j hj
      obtain ⟨d, D', h, s1, s2⟩ := r3 j hj
      exact ⟨d, D', h, get_old d D' s1, s2⟩
    intro c D hD
    simp only at hD ⊢
    rcases getElem?_three _ _ _ _ _ hD with ⟨_, h2⟩ | ⟨rfl, rfl⟩ | ⟨a, rfl, h2⟩
    · rcases inv.label c D h2 with ⟨c', C', r1, r2, r3⟩ | ⟨h, r1, r2, r3⟩
      · exact .inl ⟨c', C', r1, get_old c' C' r2, r3⟩
      · exact .inr ⟨h, r1, r2, lab_mono D _ r3⟩
    · by_cases hin : e0 ∈ segs
      · right
        refine ⟨e0, by rw [hXp]; exact hin, ?_, ?_⟩
        · intro h' hh'
          rw [hXp] at hh'
          rw [hidx]
          by_contra hlt
          have hend := hwend h' (List.mem_append_right _ hh')
          have hvis := inv.done h'.idx (by omega) hend.1.1 hend.1.2 (isEnd_bdy hend)
          obtain ⟨h'', q1, q2⟩ := (inv.vis _).1 hvis
          have := isEnd_unique (inv.ends h'' q1) hend q2
          subst this
          obtain ⟨i, hi, hie⟩ := (hmemwalk h'').1 (List.mem_append_right _ hh')
          rw [← hie] at q1
          exact hfresh i hi q1
        · rw [hidx]
          apply lab_mono
          obtain ⟨w, r1, r2, r3⟩ := hnew.lab
          exact ⟨w, r1, by rw [hXo, hXpar]; exact r2, by rw [hXo, hXpar]; exact r3⟩
      · left
        have h0 := (hmemwalk e0).2 ⟨0, by omega, rfl⟩
        rw [List.mem_append, List.mem_flatten] at h0
        rcases h0 with ⟨l, hl, hx⟩ | hx
        · obtain ⟨a, ha⟩ := List.mem_iff_getElem?.1 hl
          have hne := res.closed.1
          obtain ⟨x, xs, hxs⟩ := List.exists_cons_of_ne_nil hne
          refine ⟨_, _, ?_, get_loop a l ha, x, by rw [hXp, hxs]; simp, e0, hx, ?_⟩
          · omega
          · exact res.headpt x (by rw [hxs]; rfl)
        · exact absurd hx hin
    · left
      rw [List.getElem?_map] at h2
      cases hl : loops[a]? with
      | none => rw [hl] at h2; simp at h2
      | some l =>
        rw [hl] at h2
        have hDl : D = ⟨l, some st.contours.length, !C.outer⟩ := by simpa using h2.symm
        obtain ⟨h, hh, i, hi, r1, r2⟩ := res.touch l (List.mem_of_getElem? hl)
        obtain ⟨c', D', s1, s2⟩ := get_en i hi
        refine ⟨c', D', ?_, s1, h, by rw [hDl]; exact hh, _, s2, r1⟩
        intro hcc
        rw [hcc, hD] at s1
        have : D = D' := by simpa using s1
        rw [← this, hDl] at s2
        exact r2 s2

theorem contoursLoop_spec (hc : Consistent t) (fuel : Nat) (hf : 2 * t.n < fuel) (d : Nat) : ∀ k st, k + d = t.n →
    CInv t inside k st →
    ∃ st', contoursLoop t inside fuel ((List.range' k d).filter fun i => !t.deleted i) st = some st' ∧
      CInv t inside t.n st' := by
  induction d with
  | zero =>
    intro k st hk inv
    have : k = t.n := by omega
    subst this
    exact ⟨st, rfl, inv⟩
  | succ d ih =>
    intro k st hk inv
    rw [List.range'_succ, List.filter_cons]
    by_cases hd : t.deleted k = true
    · rw [if_neg (by simp [hd])]
      exact ih (k + 1) st (by omega) (inv.mono fun _ h => by rw [hd] at h; simp at h)
    · have hd : t.deleted k = false := by simpa using hd
      rw [if_pos (by simp [hd])]
      obtain ⟨st', h1, h2⟩ := contourAt_spec hc inv (by omega) hd fuel hf
      unfold contoursLoop
      rw [h1]
      exact ih (k + 1) st' (by omega) h2

theorem contours_spec (hc : Consistent t) (fuel : Nat) (hf : 2 * t.n < fuel) :
    ∃ st, contours t inside fuel = some st.contours ∧ CInv t inside t.n st := by
  obtain ⟨st, h1, h2⟩ := contoursLoop_spec (inside := inside) hc fuel hf t.n 0 _ (by omega) cinv_init
  refine ⟨st, ?_, h2⟩
  unfold contours segmentIndices
  rw [List.range_eq_range', h1]
  rfl

end Verif.Contours
