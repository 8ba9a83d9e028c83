import Mathlib.Data.List.Nodup
import Verif.Topo.Steps

/-! One iteration of the loop of `process_sweep_line_range`. -/

namespace Verif.Topo
open Verif.Range
set_option linter.unusedSectionVars false

variable {K : Type} [LinearOrder K] {W : Type} [AddCommGroup W]

/-- The half-segments at point `p` form one ring, and the winding numbers around it fit together. -/
def PointOk (t : Topo K W) (p : Nat) : Prop :=
  ∃ L, Ring t.nb L ∧ (∀ h, h ∈ L ↔ t.pointIdx h = some p) ∧ ∃ w, WPath t.windingCw t.windingCcw w L w

/-- The invariant of the construction. -/
structure Good (single : Nat → Bool → W) (t : Topo K W) : Prop where
  ptLt : ∀ h p, t.pointIdx h = some p → p < t.points.length ∧ h.idx < t.n
  firstSome : ∀ i < t.n, (t.pointIdx ⟨i, true⟩).isSome
  order : ∀ i p q, t.pointIdx ⟨i, true⟩ = some p → t.pointIdx ⟨i, false⟩ = some q → p < q
  openIff : ∀ i s, i ∈ t.openSegs s ↔ i < t.n ∧ t.origSeg i = s ∧ t.pointIdx ⟨i, false⟩ = none
  openNodup : ∀ s, (t.openSegs s).Nodup
  rings : ∀ p < t.points.length, PointOk t p
  sgn : ∀ i < t.n, (t.winding i).ccw = (t.winding i).cw + single (t.origSeg i) (t.positive i)
  west : ∀ i < t.n, ∀ j, t.scanWest i = some j → j < i
  notDeleted : ∀ i < t.n, t.deleted i = false

/-- The effect of processing one point. -/
structure PointResult (single : Nat → Bool → W) (x y : K) (ha us : List Nat) (hOf oOf : Nat → Nat)
    (base : Nat → List Nat) (ds gs : List (Nat × Bool)) (t t' : Topo K W) (sw : Option Nat) (w w' v : W)
    (fD fG : Nat → Nat) : Prop where
  good : Good single t'
  points : t'.points = t.points ++ [(x, y)]
  scanAfter : t'.scanAfter = t.scanAfter
  n_eq : t'.n = t.n + ds.length + gs.length
  winding_old : ∀ i < t.n, t'.winding i = t.winding i
  west_old : ∀ i < t.n, t'.scanWest i = t.scanWest i
  east_old : ∀ i < t.n, t'.scanEast i = t.scanEast i
  orig_old : ∀ i < t.n, t'.origSeg i = t.origSeg i
  positive_old : ∀ i < t.n, t'.positive i = t.positive i
  pidx_old : ∀ h p', t.pointIdx h = some p' → t'.pointIdx h = some p'
  pidx_rest : ∀ h, h.idx < t.n → (∀ s ∈ ha, h ≠ ⟨hOf s, false⟩) → (∀ s ∈ us, h ≠ ⟨oOf s, false⟩) →
    t'.pointIdx h = t.pointIdx h
  pidx_h : ∀ s ∈ ha, t'.pointIdx ⟨hOf s, false⟩ = some t.points.length
  pidx_u : ∀ s ∈ us, t'.pointIdx ⟨oOf s, false⟩ = some t.points.length
  outs_d : (ds.map Prod.fst).map fD = List.range' t.n ds.length
  outs_g : (gs.map Prod.fst).map fG = List.range' (t.n + ds.length) gs.length
  pidx_new : ∀ i, t.n ≤ i → i < t'.n → t'.pointIdx ⟨i, true⟩ = some t.points.length ∧ t'.pointIdx ⟨i, false⟩ = none
  orig_d : ∀ s o, (s, o) ∈ ds → t'.origSeg (fD s) = s ∧ t'.positive (fD s) = o
  orig_g : ∀ s o, (s, o) ∈ gs → t'.origSeg (fG s) = s ∧ t'.positive (fG s) = o
  opens : ∀ s, t'.openSegs s = (if s ∈ gs.map Prod.fst then [fG s] else []) ++ base s ++
    (if s ∈ ds.map Prod.fst then [fD s] else [])
  lineD : WLine t'.winding w (List.range' t.n ds.length) w'
  lineG : WLine t'.winding w' (List.range' (t.n + ds.length) gs.length) v
  west_d : ∀ i, t.n ≤ i → i < t.n + ds.length → t'.scanWest i = if i = t.n then sw else some (i - 1)
  west_g : ∀ i, t.n + ds.length ≤ i → i < t'.n →
    t'.scanWest i = ((List.range' t.n ds.length).getLast?).or sw
  east_new : ∀ i, t.n ≤ i → i < t'.n → t'.scanEast i = none
  nb_old : ∀ h p', t.pointIdx h = some p' → t'.nb h = t.nb h
  ring_new : Ring t'.nb (((List.range' (t.n + ds.length) gs.length).map fun i => (⟨i, true⟩ : Half)).reverse ++
    (((List.range' t.n ds.length).map fun i => (⟨i, true⟩ : Half)).reverse ++
    ((ha.map fun a => (⟨hOf a, false⟩ : Half)) ++ us.map fun a => (⟨oOf a, false⟩ : Half))))
  mem_new : ∀ h, h ∈ (((List.range' (t.n + ds.length) gs.length).map fun i => (⟨i, true⟩ : Half)).reverse ++
    (((List.range' t.n ds.length).map fun i => (⟨i, true⟩ : Half)).reverse ++
    ((ha.map fun a => (⟨hOf a, false⟩ : Half)) ++ us.map fun a => (⟨oOf a, false⟩ : Half)))) ↔
    t'.pointIdx h = some t.points.length

theorem processPoint_spec (single : Nat → Bool → W) (orient : Nat → Bool) (y x : K) (s : LoopState K W)
    (us downs : List Nat) (hOf oOf : Nat → Nat) (gH gU : Nat → List Nat) (ha : List Nat) (gs : List (Nat × Bool))
    (hha : ha = s.r.active.map HFrag.seg)
    (hgs : gs = s.r.increaseX.active.map fun h => (h.seg, h.enterFirst == orient h.seg))
    (hgood : Good single s.t) (hseg : s.r.segmentsAtX = some (us, downs))
    (hand : ha.Nodup) (hund : us.Nodup) (hdnd : downs.Nodup) (hgnd : (gs.map Prod.fst).Nodup)
    (hopen : ∀ a ∈ ha, s.t.openSegs a = hOf a :: gH a)
    (uopen : ∀ a ∈ us, (if a ∈ ha then gH a else s.t.openSegs a) = oOf a :: gU a)
    (above above' : W)
    (wH : WLine s.t.winding s.winding (ha.map hOf) above)
    (wU : WLine s.t.winding above (us.map oOf) above')
    (hbal : above' = s.winding + ((downs.map fun a => (a, orient a)).map fun d => single d.1 d.2).sum +
      (gs.map fun d => single d.1 d.2).sum)
    (hsw : ∀ j, s.scanWest = some j → j < s.t.n) :
    ∃ t' w' fD fG, processPoint single orient y x s =
        some ⟨t', s.r.increaseX, w', ((List.range' s.t.n downs.length).getLast?).or s.scanWest,
          ((List.range' s.t.n downs.length).getLast?).or s.lastDown⟩ ∧
      PointResult single x y ha us hOf oOf
        (fun a => if a ∈ us then gU a else if a ∈ ha then gH a else s.t.openSegs a)
        (downs.map fun a => (a, orient a)) gs s.t t' s.scanWest s.winding w' above' fD fG ∧
      w' = s.winding + ((downs.map fun a => (a, orient a)).map fun d => single d.1 d.2).sum := by
  obtain ⟨t, r, w, sw, ld⟩ := s
  simp only at *
  set p := t.points.length with hp
  set ds := downs.map fun a => (a, orient a) with hds
  have hdslen : ds.length = downs.length := by simp [hds]
  have hdsfst : ds.map Prod.fst = downs := by simp [hds, Function.comp_def]
  -- step 1: close the horizontals
  have s1 := secondHalves_spec ha { t with points := t.points ++ [(x, y)] } hOf gH hand hopen
  set t1 : Topo K W := { t with points := t.points ++ [(x, y)], openSegs := fun a => if a ∈ ha then gH a else t.openSegs a } with ht1
  set Hin : List Half := ha.map fun a => ⟨hOf a, false⟩ with hHin
  set U : List Half := us.map fun a => ⟨oOf a, false⟩ with hU
  -- output indices are open, hence known
  have hOpenH : ∀ a ∈ ha, hOf a ∈ t.openSegs a := fun a h => by rw [hopen a h]; simp
  have hOpenU : ∀ a ∈ us, oOf a ∈ t.openSegs a := by
    intro a h
    have := uopen a h
    by_cases q : a ∈ ha
    · rw [if_pos q] at this; rw [hopen a q, this]; simp
    · rw [if_neg q] at this; rw [this]; simp
  have kH : ∀ a ∈ ha, hOf a < t.n ∧ t.origSeg (hOf a) = a ∧ t.pointIdx ⟨hOf a, false⟩ = none :=
    fun a h => (hgood.openIff _ _).1 (hOpenH a h)
  have kU : ∀ a ∈ us, oOf a < t.n ∧ t.origSeg (oOf a) = a ∧ t.pointIdx ⟨oOf a, false⟩ = none :=
    fun a h => (hgood.openIff _ _).1 (hOpenU a h)
  have hHinNd : Hin.Nodup := by
    rw [hHin]
    refine List.Nodup.map_on ?_ hand
    intro a h b h' e
    simp only [Half.mk.injEq, and_true] at e
    rw [← (kH a h).2.1, ← (kH b h').2.1, e]
  have hUNd : U.Nodup := by
    rw [hU]
    refine List.Nodup.map_on ?_ hund
    intro a h b h' e
    simp only [Half.mk.injEq, and_true] at e
    rw [← (kU a h).2.1, ← (kU b h').2.1, e]
  have hHU : ∀ h ∈ Hin, h ∉ U := by
    intro h h1 h2
    simp only [hHin, hU, List.mem_map] at h1 h2
    obtain ⟨a, ha1, rfl⟩ := h1
    obtain ⟨b, hb1, e⟩ := h2
    simp only [Half.mk.injEq, and_true] at e
    have hab : b = a := by rw [← (kU b hb1).2.1, ← (kH a ha1).2.1, e]
    subst hab
    have hnd := hgood.openNodup b
    have := uopen b hb1
    rw [if_pos ha1] at this
    rw [hopen b ha1, this, e] at hnd
    simp at hnd
  have hHUnd : (Hin ++ U).Nodup := by
    rw [List.nodup_append]
    refine ⟨hHinNd, hUNd, ?_⟩
    intro a h1 b h2 e
    exact hHU a h1 (e ▸ h2)
  have hHUidx : ∀ h ∈ Hin ++ U, h.idx < t.n ∧ h.first = false ∧ t.pointIdx h = none := by
    intro h hh
    simp only [hHin, hU, List.mem_append, List.mem_map] at hh
    rcases hh with ⟨a, h1, rfl⟩ | ⟨a, h1, rfl⟩
    · exact ⟨(kH a h1).1, rfl, (kH a h1).2.2⟩
    · exact ⟨(kU a h1).1, rfl, (kU a h1).2.2⟩
  -- step 2
  obtain ⟨a11, a12, a13, a14⟩ := addCw_spec p Hin ⟨t1, none, none⟩ [] rfl rfl (by simpa using hHinNd)
    ⟨List.nodup_nil, by simp⟩
  simp only [List.nil_append] at a11 a12 a13 a14
  set A1 := addCw p Hin ⟨t1, none, none⟩ with hA1
  -- step 3
  have s2 := secondHalves_spec us A1.t oOf gU hund (by
    intro a h
    rw [a14.eq]
    exact uopen a h)
  set t2 : Topo K W := { A1.t with openSegs := fun a => if a ∈ us then gU a else A1.t.openSegs a } with ht2
  obtain ⟨a21, a22, a23, a24⟩ := addCw_spec p U ⟨t2, A1.first, A1.last⟩ Hin a12 a13 hHUnd a11
  set A2 := addCw p U ⟨t2, A1.first, A1.last⟩ with hA2
  -- step 4: downs
  have hA2n : A2.t.n = t.n := by rw [a24.eq, ht2]; simp only; rw [a14.eq]
  have hA2w : A2.t.winding = t.winding := by rw [a24.eq, ht2]; simp only; rw [a14.eq]
  obtain ⟨fD, hD⟩ := placeNew_spec single false p ds ⟨A2.t, w, sw, ld, []⟩ (by rw [hdsfst]; exact hdnd)
  set D := placeNew single false p ds ⟨A2.t, w, sw, ld, []⟩ with hDdef
  set Dl : List Half := (List.range' t.n ds.length).map fun i => ⟨i, true⟩ with hDl
  have hDbuf : D.buf = Dl := by rw [hD.buf]; simp [hDl, hA2n]
  have hDn : D.t.n = t.n + ds.length := by rw [hD.n]; simp only; rw [hA2n]
  have hDlmem : ∀ h ∈ Dl, t.n ≤ h.idx ∧ h.idx < t.n + ds.length ∧ h.first = true := by
    intro h hh
    simp only [hDl, List.mem_map, List.mem_range'_1] at hh
    obtain ⟨i, hi, rfl⟩ := hh
    exact ⟨hi.1, hi.2, rfl⟩
  have hDlNd : Dl.Nodup := by
    rw [hDl]
    exact (List.nodup_range' (step := 1)).map (fun a b e => by simpa using e)
  have hL3nd : (Dl.reverse ++ (Hin ++ U)).Nodup := by
    rw [List.nodup_append]
    refine ⟨List.nodup_reverse.2 hDlNd, hHUnd, ?_⟩
    intro a h1 b h2 e
    subst e
    have := hDlmem a (List.mem_reverse.1 h1)
    have := hHUidx a h2
    omega
  have hringD : Ring D.t.nb (Hin ++ U) := a21.congr (by
    intro a h
    exact hD.nb_old a (by simp only; rw [hA2n]; exact (hHUidx a h).1))
  obtain ⟨a31, a32, a33, a34⟩ := addCcw_spec p D.buf ⟨D.t, A2.first, A2.last⟩ (Hin ++ U) a22 a23
    (by rw [hDbuf]; exact hL3nd) hringD
  rw [hDbuf] at a31 a32 a33 a34
  set A3 := addCcw p Dl ⟨D.t, A2.first, A2.last⟩ with hA3
  have hA3n : A3.t.n = t.n + ds.length := by rw [a34.eq]; exact hDn
  -- step 5: horizontals
  obtain ⟨fG, hG⟩ := placeNew_spec single true p gs ⟨A3.t, D.winding, D.scanWest, D.lastDown, []⟩ hgnd
  set G := placeNew single true p gs ⟨A3.t, D.winding, D.scanWest, D.lastDown, []⟩ with hGdef
  set Gl : List Half := (List.range' (t.n + ds.length) gs.length).map fun i => ⟨i, true⟩ with hGl
  have hGbuf : G.buf = Gl := by rw [hG.buf]; simp [hGl, hA3n]
  have hGn : G.t.n = t.n + ds.length + gs.length := by rw [hG.n]; simp only; rw [hA3n]
  have hGlmem : ∀ h ∈ Gl, t.n + ds.length ≤ h.idx ∧ h.idx < t.n + ds.length + gs.length ∧ h.first = true := by
    intro h hh
    simp only [hGl, List.mem_map, List.mem_range'_1] at hh
    obtain ⟨i, hi, rfl⟩ := hh
    exact ⟨hi.1, hi.2, rfl⟩
  have hGlNd : Gl.Nodup := by
    rw [hGl]
    exact (List.nodup_range' (step := 1)).map (fun a b e => by simpa using e)
  set L : List Half := Gl.reverse ++ (Dl.reverse ++ (Hin ++ U)) with hL
  have hL3idx : ∀ h ∈ Dl.reverse ++ (Hin ++ U), h.idx < t.n + ds.length := by
    intro h hh
    rw [List.mem_append, List.mem_reverse] at hh
    rcases hh with hh | hh
    · exact (hDlmem h hh).2.1
    · have := (hHUidx h hh).1; omega
  have hLnd : L.Nodup := by
    rw [hL, List.nodup_append]
    refine ⟨List.nodup_reverse.2 hGlNd, hL3nd, ?_⟩
    intro a h1 b h2 e
    subst e
    have := hGlmem a (List.mem_reverse.1 h1)
    have := hL3idx a h2
    omega
  have hringG : Ring G.t.nb (Dl.reverse ++ (Hin ++ U)) := a31.congr (by
    intro a h
    exact hG.nb_old a (by simp only; rw [hA3n]; exact hL3idx a h))
  obtain ⟨a41, a42, a43, a44⟩ := addCcw_spec p G.buf ⟨G.t, A3.first, A3.last⟩ (Dl.reverse ++ (Hin ++ U)) a32 a33
    (by rw [hGbuf]; exact hLnd) hringG
  rw [hGbuf] at a41 a42 a43 a44
  rw [← hL] at a41 a42 a43 a44
  set A4 := addCcw p Gl ⟨G.t, A3.first, A3.last⟩ with hA4
  -- the computation
  have hcomp : processPoint single orient y x ⟨t, r, w, sw, ld⟩ =
      some ⟨A4.t, r.increaseX, D.winding, D.scanWest, D.lastDown⟩ := by
    unfold processPoint
    simp only
    rw [← hha, s1]
    simp only [hseg]
    rw [← hA1, s2]
    simp only
    rw [← hA2, ← hds, ← hDdef, hDbuf, ← hA3, ← hgs, ← hGdef, hGbuf, ← hA4]
  have hDsum : D.winding = w + (ds.map fun d => single d.1 d.2).sum := hD.sum
  -- summary of the final state
  have f_n : A4.t.n = t.n + ds.length + gs.length := by rw [a44.eq]; exact hGn
  have f_points : A4.t.points = t.points ++ [(x, y)] := by
    rw [a44.eq]; simp only; rw [hG.points]; simp only; rw [a34.eq]; simp only; rw [hD.points]; simp only
    rw [a24.eq]; simp only [ht2]; rw [a14.eq]
  have f_scanAfter : A4.t.scanAfter = t.scanAfter := by
    rw [a44.eq]; simp only; rw [hG.scanAfter]; simp only; rw [a34.eq]; simp only; rw [hD.scanAfter]; simp only
    rw [a24.eq]; simp only [ht2]; rw [a14.eq]
  have f_winding : A4.t.winding = G.t.winding := by rw [a44.eq]
  have g_winding : ∀ i < t.n + ds.length, G.t.winding i = D.t.winding i := by
    intro i hi
    rw [hG.winding_old i (by simp only; omega)]; simp only; rw [a34.eq]
  have d_winding : ∀ i < t.n, D.t.winding i = t.winding i := by
    intro i hi
    rw [hD.winding_old i (by simp only; omega)]; simp only; rw [hA2w]
  have f_windOld : ∀ i < t.n, A4.t.winding i = t.winding i := by
    intro i hi; rw [f_winding, g_winding i (by omega), d_winding i hi]
  have f_orig : A4.t.origSeg = G.t.origSeg := by rw [a44.eq]
  have g_orig : ∀ i < t.n + ds.length, G.t.origSeg i = D.t.origSeg i := by
    intro i hi
    rw [hG.orig_old i (by simp only; omega)]; simp only; rw [a34.eq]
  have d_orig : ∀ i < t.n, D.t.origSeg i = t.origSeg i := by
    intro i hi
    rw [hD.orig_old i (by simp only; omega)]; simp only
    rw [a24.eq]; simp only [ht2]; rw [a14.eq]
  have f_pos : A4.t.positive = G.t.positive := by rw [a44.eq]
  have g_pos : ∀ i < t.n + ds.length, G.t.positive i = D.t.positive i := by
    intro i hi
    rw [hG.positive_old i (by simp only; omega)]; simp only; rw [a34.eq]
  have d_pos : ∀ i < t.n, D.t.positive i = t.positive i := by
    intro i hi
    rw [hD.positive_old i (by simp only; omega)]; simp only
    rw [a24.eq]; simp only [ht2]; rw [a14.eq]
  have f_west : A4.t.scanWest = G.t.scanWest := by rw [a44.eq]
  have g_west : ∀ i < t.n + ds.length, G.t.scanWest i = D.t.scanWest i := by
    intro i hi
    rw [hG.west_old i (by simp only; omega)]; simp only; rw [a34.eq]
  have d_west : ∀ i < t.n, D.t.scanWest i = t.scanWest i := by
    intro i hi
    rw [hD.west_old i (by simp only; omega)]; simp only
    rw [a24.eq]; simp only [ht2]; rw [a14.eq]
  have f_east : ∀ i < t.n, A4.t.scanEast i = t.scanEast i := by
    intro i hi
    rw [a44.eq]; simp only
    rw [hG.east_old i (by simp only; omega)]; simp only; rw [a34.eq]; simp only
    rw [hD.east_old i (by simp only; omega)]; simp only
    rw [a24.eq]; simp only [ht2]; rw [a14.eq]
  -- point indices
  have a2_pidx : ∀ h, A2.t.pointIdx h = if h ∈ Hin ++ U then some p else t.pointIdx h := by
    intro h
    rw [a24.eq]; simp only [ht2]; rw [a14.eq]; simp only [List.mem_append]
    by_cases q1 : h ∈ U <;> by_cases q2 : h ∈ Hin <;> simp [q1, q2, ht1]
  have f_pidx_old : ∀ h, h.idx < t.n → A4.t.pointIdx h = if h ∈ Hin ++ U then some p else t.pointIdx h := by
    intro h hi
    have n1 : h ∉ Gl := fun hc => by have := (hGlmem h hc).1; omega
    have n2 : h ∉ Dl := fun hc => by have := (hDlmem h hc).1; omega
    rw [a44.eq]; simp only [n1, if_false]
    rw [hG.pointIdx_old h (by simp only; omega)]; simp only
    rw [a34.eq]; simp only [n2, if_false]
    rw [hD.pointIdx_old h (by simp only; omega)]
    exact a2_pidx h
  have f_pidx_new : ∀ i, t.n ≤ i → i < A4.t.n → A4.t.pointIdx ⟨i, true⟩ = some p ∧ A4.t.pointIdx ⟨i, false⟩ = none := by
    intro i h1 h2
    rw [f_n] at h2
    by_cases q : i < t.n + ds.length
    · have m2 : (⟨i, true⟩ : Half) ∈ Dl := by
        simp only [hDl, List.mem_map, List.mem_range'_1]; exact ⟨i, ⟨h1, q⟩, rfl⟩
      have n1 : ∀ b, (⟨i, b⟩ : Half) ∉ Gl := fun b hc => by have := (hGlmem _ hc).1; simp only at this; omega
      have n2 : (⟨i, false⟩ : Half) ∉ Dl := fun hc => by have := (hDlmem _ hc).2.2; simp at this
      rw [a44.eq]; simp only [n1, if_false]
      rw [hG.pointIdx_old _ (by simp only; omega), hG.pointIdx_old _ (by simp only; omega)]; simp only
      rw [a34.eq]; simp only [m2, n2, if_true, if_false, true_and]
      exact (hD.pointIdx_new i (by simp only; omega) (by omega)).2
    · have m2 : (⟨i, true⟩ : Half) ∈ Gl := by
        simp only [hGl, List.mem_map, List.mem_range'_1]; exact ⟨i, ⟨by omega, h2⟩, rfl⟩
      have n2 : (⟨i, false⟩ : Half) ∉ Gl := fun hc => by have := (hGlmem _ hc).2.2; simp at this
      rw [a44.eq]; simp only [m2, n2, if_true, if_false, true_and]
      exact (hG.pointIdx_new i (by simp only; omega) (by omega)).2
  have f_pidx_beyond : ∀ h, A4.t.n ≤ h.idx → A4.t.pointIdx h = none := by
    intro h hi
    rw [f_n] at hi
    have n1 : h ∉ Gl := fun hc => by have := (hGlmem h hc).2.1; omega
    have n2 : h ∉ Dl := fun hc => by have := (hDlmem h hc).2.1; omega
    have n3 : h ∉ Hin ++ U := fun hc => by have := (hHUidx h hc).1; omega
    rw [a44.eq]; simp only [n1, if_false]
    rw [hG.pointIdx_beyond h (by omega)]; simp only
    rw [a34.eq]; simp only [n2, if_false]
    rw [hD.pointIdx_beyond h (by omega)]; simp only
    rw [a2_pidx h, if_neg n3]
    cases hq : t.pointIdx h with
    | none => rfl
    | some q => have := (hgood.ptLt h q hq).2; omega
  have f_memL : ∀ h, h ∈ L ↔ A4.t.pointIdx h = some p := by
    intro h
    have hmem : h ∈ L ↔ h ∈ Gl ∨ h ∈ Dl ∨ h ∈ Hin ++ U := by
      rw [hL]; simp only [List.mem_append, List.mem_reverse]
    rw [hmem]
    by_cases q1 : h.idx < t.n
    · rw [f_pidx_old h q1]
      constructor
      · rintro (hc | hc | hc)
        · have := (hGlmem h hc).1; omega
        · have := (hDlmem h hc).1; omega
        · rw [if_pos hc]
      · intro hc
        by_cases q2 : h ∈ Hin ++ U
        · exact .inr (.inr q2)
        · rw [if_neg q2] at hc
          have := (hgood.ptLt h p hc).1; omega
    · by_cases q2 : h.idx < A4.t.n
      · have hnew := f_pidx_new h.idx (by omega) q2
        obtain ⟨hi, hb⟩ := h
        simp only at q1 q2 hnew ⊢
        cases hb with
        | true =>
          rw [hnew.1]
          refine ⟨fun _ => rfl, fun _ => ?_⟩
          rw [f_n] at q2
          by_cases q3 : hi < t.n + ds.length
          · right; left; simp only [hDl, List.mem_map, List.mem_range'_1]; exact ⟨hi, ⟨by omega, q3⟩, rfl⟩
          · left; simp only [hGl, List.mem_map, List.mem_range'_1]; exact ⟨hi, ⟨by omega, q2⟩, rfl⟩
        | false =>
          rw [hnew.2]
          constructor
          · rintro (hc | hc | hc)
            · have := (hGlmem _ hc).2.2; simp at this
            · have := (hDlmem _ hc).2.2; simp at this
            · have := (hHUidx _ hc).1; simp only at this; omega
          · intro hc; simp at hc
      · rw [f_pidx_beyond h (by omega)]
        constructor
        · rintro (hc | hc | hc)
          · have := (hGlmem _ hc).2.1; omega
          · have := (hDlmem _ hc).2.1; omega
          · have := (hHUidx _ hc).1; omega
        · intro hc; simp at hc
  -- links of older halves
  have f_nb_old : ∀ h, h.idx < t.n → h ∉ Hin ++ U → A4.t.nb h = t.nb h := by
    intro h hi hn
    have n1 : h ∉ Gl := fun hc => by have := (hGlmem h hc).1; omega
    have n2 : h ∉ Dl := fun hc => by have := (hDlmem h hc).1; omega
    have hn' := hn
    rw [List.mem_append, not_or] at hn'
    rw [a44.other h (by rw [hL]; simp only [List.mem_append, List.mem_reverse, not_or]; exact ⟨n1, n2, hn'⟩)]
    simp only
    rw [hG.nb_old h (by simp only; omega)]; simp only
    rw [a34.other h (by simp only [List.mem_append, List.mem_reverse, not_or]; exact ⟨n2, hn'⟩)]
    simp only
    rw [hD.nb_old h (by simp only; omega)]; simp only
    rw [a24.other h hn]; simp only [ht2]
    rw [a14.other h hn'.1]
  -- windings of halves
  have hcw_old : ∀ h : Half, h.idx < t.n → A4.t.windingCw h = t.windingCw h := by
    intro h hi; unfold Topo.windingCw; rw [f_windOld h.idx hi]
  have hccw_old : ∀ h : Half, h.idx < t.n → A4.t.windingCcw h = t.windingCcw h := by
    intro h hi; unfold Topo.windingCcw; rw [f_windOld h.idx hi]
  -- lines
  have lineD : WLine A4.t.winding w (List.range' t.n ds.length) D.winding := by
    have := hD.line
    simp only [hA2n] at this
    refine this.congr ?_
    intro i hi
    rw [List.mem_range'_1] at hi
    rw [f_winding, g_winding i hi.2]
  have lineG : WLine A4.t.winding D.winding (List.range' (t.n + ds.length) gs.length) above' := by
    have := hG.line
    simp only [hA3n] at this
    have e : G.winding = above' := by
      rw [hG.sum, hDsum, hbal]
    rw [e] at this
    rw [f_winding]; exact this
  have hring_p : PointOk A4.t p := by
    refine ⟨L, a41, f_memL, above', ?_⟩
    rw [hL]
    refine (WPath.firstRev A4.t lineG).append ((WPath.firstRev A4.t lineD).append ?_)
    refine WPath.append (m := above) ?_ ?_
    · have := WPath.second A4.t (l := ha.map hOf) (u := w) (v := above) (wH.congr (by
        intro i hi
        simp only [List.mem_map] at hi
        obtain ⟨a, h1, rfl⟩ := hi
        exact f_windOld _ (kH a h1).1))
      rw [List.map_map] at this
      exact this
    · have := WPath.second A4.t (l := us.map oOf) (u := above) (v := above') (wU.congr (by
        intro i hi
        simp only [List.mem_map] at hi
        obtain ⟨a, h1, rfl⟩ := hi
        exact f_windOld _ (kU a h1).1))
      rw [List.map_map] at this
      exact this
  -- open segments
  have f_opens : ∀ a, A4.t.openSegs a = (if a ∈ gs.map Prod.fst then [fG a] else []) ++
      (if a ∈ us then gU a else if a ∈ ha then gH a else t.openSegs a) ++
      (if a ∈ ds.map Prod.fst then [fD a] else []) := by
    intro a
    have b0 : A2.t.openSegs a = if a ∈ us then gU a else if a ∈ ha then gH a else t.openSegs a := by
      rw [a24.eq]; simp only [ht2]; rw [a14.eq]
    have b1 : A3.t.openSegs a = A2.t.openSegs a ++ if a ∈ ds.map Prod.fst then [fD a] else [] := by
      rw [a34.eq]; simp only; rw [hD.opens a]
      by_cases q : a ∈ ds.map Prod.fst <;> simp [q]
    rw [a44.eq]; simp only; rw [hG.opens a]
    simp only
    rw [b1, b0]
    by_cases q : a ∈ gs.map Prod.fst <;> simp [q]
  have fD_range : ∀ a ∈ ds.map Prod.fst, t.n ≤ fD a ∧ fD a < t.n + ds.length := by
    intro a h1
    have : fD a ∈ (ds.map Prod.fst).map fD := List.mem_map_of_mem h1
    rw [hD.outs, List.mem_range'_1] at this
    simp only [hA2n] at this
    exact this
  have fG_range : ∀ a ∈ gs.map Prod.fst, t.n + ds.length ≤ fG a ∧ fG a < t.n + ds.length + gs.length := by
    intro a h1
    have : fG a ∈ (gs.map Prod.fst).map fG := List.mem_map_of_mem h1
    rw [hG.outs, List.mem_range'_1] at this
    simp only [hA3n] at this
    exact this
  have orig_d : ∀ a o, (a, o) ∈ ds → A4.t.origSeg (fD a) = a ∧ A4.t.positive (fD a) = o := by
    intro a o hm
    have hr := fD_range a (List.mem_map_of_mem (f := Prod.fst) hm)
    rw [f_orig, f_pos, g_orig _ hr.2, g_pos _ hr.2]
    exact hD.orig_new a o hm
  have orig_g : ∀ a o, (a, o) ∈ gs → A4.t.origSeg (fG a) = a ∧ A4.t.positive (fG a) = o := by
    intro a o hm
    rw [f_orig, f_pos]
    exact hG.orig_new a o hm
  have base_open : ∀ a i, i ∈ (if a ∈ us then gU a else if a ∈ ha then gH a else t.openSegs a) ↔
      i ∈ t.openSegs a ∧ ⟨i, false⟩ ∉ Hin ++ U := by
    intro a i
    have hnd := hgood.openNodup a
    -- membership of `⟨i,false⟩` in `Hin ++ U` for `i` open for `a`
    have hin : i ∈ t.openSegs a → (⟨i, false⟩ ∈ Hin ++ U ↔ (a ∈ ha ∧ i = hOf a) ∨ (a ∈ us ∧ i = oOf a)) := by
      intro hi
      have ho := ((hgood.openIff i a).1 hi).2.1
      simp only [hHin, hU, List.mem_append, List.mem_map, Half.mk.injEq, and_true]
      constructor
      · rintro (⟨b, hb, e⟩ | ⟨b, hb, e⟩)
        · left; have : b = a := by rw [← (kH b hb).2.1, e, ho]
          subst this; exact ⟨hb, e.symm⟩
        · right; have : b = a := by rw [← (kU b hb).2.1, e, ho]
          subst this; exact ⟨hb, e.symm⟩
      · rintro (⟨h1, e⟩ | ⟨h1, e⟩)
        · left; exact ⟨a, h1, e.symm⟩
        · right; exact ⟨a, h1, e.symm⟩
    by_cases q1 : a ∈ us
    · have u1 := uopen a q1
      by_cases q2 : a ∈ ha
      · rw [if_pos q2] at u1
        have h1 := hopen a q2
        rw [if_pos q1]
        rw [u1] at h1
        rw [h1] at hnd hin ⊢
        simp only [List.nodup_cons, List.mem_cons, not_or] at hnd
        constructor
        · intro hi
          refine ⟨by simp [hi], ?_⟩
          rw [hin (by simp [hi])]
          rintro (⟨_, e⟩ | ⟨_, e⟩)
          · exact hnd.1.2 (e ▸ hi)
          · exact hnd.2.1 (e ▸ hi)
        · rintro ⟨hi, hn⟩
          rw [hin hi] at hn
          simp only [q1, q2, true_and, not_or] at hn
          simpa [hn.1, hn.2] using hi
      · rw [if_neg q2] at u1
        rw [if_pos q1]
        rw [u1] at hnd hin ⊢
        simp only [List.nodup_cons] at hnd
        constructor
        · intro hi
          refine ⟨by simp [hi], ?_⟩
          rw [hin (by simp [hi])]
          rintro (⟨h2, e⟩ | ⟨_, e⟩)
          · exact q2 h2
          · exact hnd.1 (e ▸ hi)
        · rintro ⟨hi, hn⟩
          rw [hin hi] at hn
          simp only [q1, q2, true_and, false_and, false_or] at hn
          simpa [hn] using hi
    · rw [if_neg q1]
      by_cases q2 : a ∈ ha
      · rw [if_pos q2]
        have h1 := hopen a q2
        rw [h1] at hnd hin ⊢
        simp only [List.nodup_cons] at hnd
        constructor
        · intro hi
          refine ⟨by simp [hi], ?_⟩
          rw [hin (by simp [hi])]
          rintro (⟨_, e⟩ | ⟨h2, _⟩)
          · exact hnd.1 (e ▸ hi)
          · exact q1 h2
        · rintro ⟨hi, hn⟩
          rw [hin hi] at hn
          simp only [q1, q2, true_and, false_and, or_false] at hn
          simpa [hn] using hi
      · rw [if_neg q2]
        constructor
        · intro hi
          refine ⟨hi, ?_⟩
          rw [hin hi]
          rintro (⟨h2, _⟩ | ⟨h2, _⟩)
          · exact q2 h2
          · exact q1 h2
        · exact fun h => h.1
  have base_nodup : ∀ a, (if a ∈ us then gU a else if a ∈ ha then gH a else t.openSegs a).Nodup := by
    intro a
    have hnd := hgood.openNodup a
    by_cases q1 : a ∈ us
    · have u1 := uopen a q1
      rw [if_pos q1]
      by_cases q2 : a ∈ ha
      · rw [if_pos q2] at u1
        rw [hopen a q2, u1] at hnd
        exact (List.nodup_cons.1 (List.nodup_cons.1 hnd).2).2
      · rw [if_neg q2] at u1
        rw [u1] at hnd
        exact (List.nodup_cons.1 hnd).2
    · rw [if_neg q1]
      by_cases q2 : a ∈ ha
      · rw [if_pos q2]
        rw [hopen a q2] at hnd
        exact (List.nodup_cons.1 hnd).2
      · rw [if_neg q2]; exact hnd
  have base_lt : ∀ a i, i ∈ (if a ∈ us then gU a else if a ∈ ha then gH a else t.openSegs a) → i < t.n :=
    fun a i hi => ((hgood.openIff i a).1 ((base_open a i).1 hi).1).1
  have west_d : ∀ i, t.n ≤ i → i < t.n + ds.length → A4.t.scanWest i = if i = t.n then sw else some (i - 1) := by
    intro i h1 h2
    rw [f_west, g_west i h2, hD.west_new i (by simp only; omega) (by omega)]
    simp only [hA2n, Bool.false_eq_true, false_or]
  have dsw : D.scanWest = ((List.range' t.n ds.length).getLast?).or sw := by
    have := hD.scanWest
    simp only [hA2n, Bool.false_eq_true, if_false] at this
    exact this
  have dld : D.lastDown = ((List.range' t.n ds.length).getLast?).or ld := by
    have := hD.lastDown
    simp only [hA2n, Bool.false_eq_true, if_false] at this
    exact this
  have dsw_lt : ∀ j, D.scanWest = some j → j < t.n + ds.length := by
    intro j hj
    rw [dsw] at hj
    cases hq : (List.range' t.n ds.length).getLast? with
    | none => rw [hq] at hj; simp at hj; have := hsw j hj; omega
    | some z =>
      rw [hq] at hj; simp at hj
      have := List.mem_of_getLast? hq
      rw [List.mem_range'_1] at this
      omega
  refine ⟨A4.t, D.winding, fD, fG, ?_, ?_, hDsum⟩
  · rw [hcomp, dsw, dld, hdslen]
  constructor
  · -- Good
    constructor
    · intro h q hq
      rw [f_points, List.length_append, List.length_singleton]
      by_cases q1 : h.idx < A4.t.n
      · refine ⟨?_, q1⟩
        by_cases q2 : h.idx < t.n
        · rw [f_pidx_old h q2] at hq
          by_cases q3 : h ∈ Hin ++ U
          · rw [if_pos q3] at hq; simp at hq; omega
          · rw [if_neg q3] at hq; have := (hgood.ptLt h q hq).1; omega
        · have := f_pidx_new h.idx (by omega) q1
          obtain ⟨hi, hb⟩ := h
          cases hb
          · rw [this.2] at hq; simp at hq
          · rw [this.1] at hq; simp at hq; omega
      · rw [f_pidx_beyond h (by omega)] at hq; simp at hq
    · intro i hi
      by_cases q : i < t.n
      · rw [f_pidx_old _ q]
        by_cases q3 : (⟨i, true⟩ : Half) ∈ Hin ++ U
        · rw [if_pos q3]; rfl
        · rw [if_neg q3]; exact hgood.firstSome i q
      · rw [(f_pidx_new i (by omega) hi).1]; rfl
    · intro i a b ha1 hb1
      by_cases q : i < t.n
      · rw [f_pidx_old _ q] at ha1 hb1
        have n1 : (⟨i, true⟩ : Half) ∉ Hin ++ U := fun hc => by have := (hHUidx _ hc).2.1; simp at this
        rw [if_neg n1] at ha1
        by_cases q3 : (⟨i, false⟩ : Half) ∈ Hin ++ U
        · rw [if_pos q3] at hb1
          simp at hb1
          have := (hgood.ptLt _ _ ha1).1
          omega
        · rw [if_neg q3] at hb1
          exact hgood.order i a b ha1 hb1
      · by_cases q2 : i < A4.t.n
        · rw [(f_pidx_new i (by omega) q2).2] at hb1; simp at hb1
        · rw [f_pidx_beyond _ (by simp only; omega)] at hb1; simp at hb1
    · intro i a
      rw [f_opens a, List.mem_append, List.mem_append, base_open a i]
      constructor
      · rintro ((h1 | h1) | h1)
        · by_cases q : a ∈ gs.map Prod.fst
          · rw [if_pos q] at h1
            have hi : i = fG a := by simpa using h1
            have hr := fG_range a q
            obtain ⟨⟨a', o⟩, hm, rfl⟩ := List.mem_map.1 q
            refine ⟨by rw [f_n, hi]; exact hr.2, by rw [hi]; exact (orig_g _ o hm).1, ?_⟩
            exact (f_pidx_new i (by omega) (by rw [f_n]; omega)).2
          · rw [if_neg q] at h1; simp at h1
        · obtain ⟨h1, h2⟩ := h1
          obtain ⟨k1, k2, k3⟩ := (hgood.openIff i a).1 h1
          refine ⟨by rw [f_n]; omega, ?_, ?_⟩
          · rw [f_orig, g_orig i (by omega), d_orig i k1]; exact k2
          · rw [f_pidx_old _ k1, if_neg h2]; exact k3
        · by_cases q : a ∈ ds.map Prod.fst
          · rw [if_pos q] at h1
            have hi : i = fD a := by simpa using h1
            have hr := fD_range a q
            obtain ⟨⟨a', o⟩, hm, rfl⟩ := List.mem_map.1 q
            refine ⟨by rw [f_n, hi]; simp only at hr ⊢; omega, by rw [hi]; exact (orig_d _ o hm).1, ?_⟩
            exact (f_pidx_new i (by omega) (by rw [f_n]; omega)).2
          · rw [if_neg q] at h1; simp at h1
      · rintro ⟨k1, k2, k3⟩
        by_cases q : i < t.n
        · left; right
          rw [f_pidx_old _ q] at k3
          by_cases q3 : (⟨i, false⟩ : Half) ∈ Hin ++ U
          · rw [if_pos q3] at k3; simp at k3
          · rw [if_neg q3] at k3
            refine ⟨(hgood.openIff i a).2 ⟨q, ?_, k3⟩, q3⟩
            rw [f_orig, g_orig i (by omega), d_orig i q] at k2; exact k2
        · rw [f_n] at k1
          by_cases q2 : i < t.n + ds.length
          · right
            have hm : i ∈ (ds.map Prod.fst).map fD := by
              rw [hD.outs, List.mem_range'_1]; simp only [hA2n]; exact ⟨by omega, q2⟩
            obtain ⟨b, hb, e⟩ := List.mem_map.1 hm
            obtain ⟨⟨b', o⟩, hm', rfl⟩ := List.mem_map.1 hb
            have := (orig_d _ o hm').1
            simp only at e this
            rw [e, k2] at this
            subst this
            rw [if_pos hb]; simp [e]
          · left; left
            have hm : i ∈ (gs.map Prod.fst).map fG := by
              rw [hG.outs, List.mem_range'_1]; simp only [hA3n]; exact ⟨by omega, k1⟩
            obtain ⟨b, hb, e⟩ := List.mem_map.1 hm
            obtain ⟨⟨b', o⟩, hm', rfl⟩ := List.mem_map.1 hb
            have := (orig_g _ o hm').1
            simp only at e this
            rw [e, k2] at this
            subst this
            rw [if_pos hb]; simp [e]
    · intro a
      rw [f_opens a]
      have hb := base_nodup a
      have hlt := base_lt a
      generalize (if a ∈ us then gU a else if a ∈ ha then gH a else t.openSegs a) = bs at hb hlt
      have hbd : (bs ++ if a ∈ ds.map Prod.fst then [fD a] else []).Nodup ∧
          ∀ z ∈ (bs ++ if a ∈ ds.map Prod.fst then [fD a] else []), z < t.n + ds.length := by
        by_cases q2 : a ∈ ds.map Prod.fst
        · have r2 := fD_range a q2
          rw [if_pos q2]
          refine ⟨List.nodup_append.2 ⟨hb, by simp, ?_⟩, ?_⟩
          · intro z hz z' hz'
            simp only [List.mem_singleton] at hz'
            have := hlt _ hz; omega
          · intro z hz
            rw [List.mem_append, List.mem_singleton] at hz
            rcases hz with hz | hz
            · have := hlt _ hz; omega
            · omega
        · rw [if_neg q2, List.append_nil]
          exact ⟨hb, fun z hz => by have := hlt _ hz; omega⟩
      rw [List.append_assoc]
      by_cases q1 : a ∈ gs.map Prod.fst
      · have r1 := fG_range a q1
        rw [if_pos q1, List.singleton_append, List.nodup_cons]
        exact ⟨fun hc => by have := hbd.2 _ hc; omega, hbd.1⟩
      · rw [if_neg q1, List.nil_append]; exact hbd.1
    · intro q hq
      rw [f_points, List.length_append, List.length_singleton] at hq
      by_cases hqp : q = p
      · subst hqp; exact hring_p
      · obtain ⟨M, m1, m2, wq, m3⟩ := hgood.rings q (by omega)
        have hMidx : ∀ h ∈ M, h.idx < t.n ∧ h ∉ Hin ++ U := by
          intro h hh
          have hq1 := (m2 h).1 hh
          refine ⟨(hgood.ptLt h q hq1).2, fun hc => ?_⟩
          rw [(hHUidx h hc).2.2] at hq1; simp at hq1
        refine ⟨M, m1.congr (fun a h1 => f_nb_old a (hMidx a h1).1 (hMidx a h1).2), ?_, wq, m3.congr
          (fun a h1 => hcw_old a (hMidx a h1).1) (fun a h1 => hccw_old a (hMidx a h1).1)⟩
        intro h
        constructor
        · intro hh
          rw [f_pidx_old h (hMidx h hh).1, if_neg (hMidx h hh).2]
          exact (m2 h).1 hh
        · intro hh
          rw [m2 h]
          by_cases q1 : h.idx < t.n
          · rw [f_pidx_old h q1] at hh
            by_cases q3 : h ∈ Hin ++ U
            · rw [if_pos q3] at hh; simp at hh; omega
            · rwa [if_neg q3] at hh
          · by_cases q2 : h.idx < A4.t.n
            · have := f_pidx_new h.idx (by omega) q2
              obtain ⟨hi, hb⟩ := h
              cases hb
              · rw [this.2] at hh; simp at hh
              · rw [this.1] at hh; simp at hh; omega
            · rw [f_pidx_beyond h (by omega)] at hh; simp at hh
    · intro i hi
      by_cases q : i < t.n
      · rw [f_windOld i q, f_orig, f_pos, g_orig i (by omega), d_orig i q, g_pos i (by omega), d_pos i q]
        exact hgood.sgn i q
      · rw [f_n] at hi
        by_cases q2 : i < t.n + ds.length
        · rw [f_winding, f_orig, f_pos, g_winding i q2, g_orig i q2, g_pos i q2]
          exact hD.sgn i (by simp only; omega) (by omega)
        · rw [f_winding, f_orig, f_pos]
          exact hG.sgn i (by simp only; omega) (by omega)
    · intro i hi j hj
      by_cases q : i < t.n
      · rw [f_west, g_west i (by omega), d_west i q] at hj
        exact hgood.west i q j hj
      · rw [f_n] at hi
        by_cases q2 : i < t.n + ds.length
        · rw [west_d i (by omega) q2] at hj
          by_cases q3 : i = t.n
          · rw [if_pos q3] at hj; have := hsw j hj; omega
          · rw [if_neg q3] at hj; simp at hj; omega
        · rw [f_west, hG.west_new i (by simp only; omega) (by omega)] at hj
          simp only [true_or, if_true] at hj
          have := dsw_lt j hj
          omega
    · intro i hi
      rw [a44.eq]; simp only
      rw [f_n] at hi
      by_cases q2 : i < t.n + ds.length
      · rw [hG.deleted_old i (by simp only; omega)]; simp only
        rw [a34.eq]; simp only
        by_cases q : i < t.n
        · rw [hD.deleted_old i (by simp only; omega)]; simp only
          rw [a24.eq]; simp only [ht2]; rw [a14.eq]
          exact hgood.notDeleted i q
        · exact hD.deleted_new i (by simp only; omega) (by omega)
      · exact hG.deleted_new i (by simp only; omega) (by omega)
  · exact f_points
  · exact f_scanAfter
  · exact f_n
  · exact f_windOld
  · intro i hi; rw [f_west, g_west i (by omega), d_west i hi]
  · exact f_east
  · intro i hi; rw [f_orig, g_orig i (by omega), d_orig i hi]
  · intro i hi; rw [f_pos, g_pos i (by omega), d_pos i hi]
  · intro h p' hp'
    have hlt := (hgood.ptLt h p' hp').2
    rw [f_pidx_old h hlt]
    by_cases q3 : h ∈ Hin ++ U
    · rw [(hHUidx h q3).2.2] at hp'; simp at hp'
    · rw [if_neg q3]; exact hp'
  · intro h hlt n1 n2
    rw [f_pidx_old h hlt, if_neg]
    simp only [hHin, hU, List.mem_append, List.mem_map, not_or, not_exists, not_and]
    exact ⟨fun a h1 e => n1 a h1 e.symm, fun a h1 e => n2 a h1 e.symm⟩
  · intro a h1
    rw [f_pidx_old _ (kH a h1).1, if_pos]
    simp only [hHin, List.mem_append, List.mem_map]; exact .inl ⟨a, h1, rfl⟩
  · intro a h1
    rw [f_pidx_old _ (kU a h1).1, if_pos]
    simp only [hU, List.mem_append, List.mem_map]; exact .inr ⟨a, h1, rfl⟩
  · rw [hD.outs]; simp only [hA2n]
  · rw [hG.outs]; simp only [hA3n]
  · exact f_pidx_new
  · exact orig_d
  · exact orig_g
  · exact f_opens
  · exact lineD
  · exact lineG
  · exact west_d
  · intro i h1 h2
    rw [f_west, hG.west_new i (by simp only; omega) (by omega)]
    simp only [true_or, if_true]
    exact dsw
  · intro i h1 h2
    rw [a44.eq]; simp only
    rw [f_n] at h2
    by_cases q2 : i < t.n + ds.length
    · rw [hG.east_old i (by simp only; omega)]; simp only
      rw [a34.eq]; simp only
      exact hD.east_new i (by simp only; omega) (by omega)
    · exact hG.east_new i (by simp only; omega) (by omega)
  · intro h p' hp'
    have hlt := (hgood.ptLt h p' hp').2
    refine f_nb_old h hlt (fun q3 => ?_)
    rw [(hHUidx h q3).2.2] at hp'; simp at hp'
  · exact a41
  · exact f_memL

end Verif.Topo
