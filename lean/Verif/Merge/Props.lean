import Verif.Merge.Main
import Verif.Contours.Props
import Verif.Topo.Eval

/-!
# Properties of `merge_coincident` (C26, C53, C54, C55)

The theorems are about the topology `t` at the end of any complete execution of the sweep (`Run hist [] t`) and the result `t'`
of merging. `close` stands for the floating-point comparison of control points and is arbitrary. `Coincident` (Main.lean)
says which pairs of non-horizontal output segments the code regards as coincident.
-/

namespace Verif.Merge
open Verif.Topo Verif.Range Verif.Contours
set_option linter.unusedSectionVars false

variable {K : Type} [LinearOrder K] {W : Type} [AddCommGroup W] [DecidableEq W]

/-- Two segments regarded as coincident are next to each other where they end. -/
def EndAdjacent (close : Nat → Nat → K → K → Bool) (t : Topo K W) : Prop :=
  ∀ c i, i < t.n → Coincident close t c i → (t.nb ⟨c, false⟩).cw = ⟨i, false⟩

/-- Output segment `i` is horizontal. -/
def Horiz (t : Topo K W) (i : Nat) : Prop := ∃ a b, Runs t i a b ∧ a.2 = b.2

/-- Nothing starts between two segments regarded as coincident: no other segment has the left one as its left neighbour. -/
def NoneBetween (close : Nat → Nat → K → K → Bool) (t : Topo K W) : Prop :=
  ∀ c i, i < t.n → Coincident close t c i → ∀ j < t.n, t.scanWest j = some c → j = i

/-- The same, except that horizontal segments do not count. -/
def NoneBelow (close : Nat → Nat → K → K → Bool) (t : Topo K W) : Prop :=
  ∀ c i, i < t.n → Coincident close t c i → ∀ j < t.n, t.scanWest j = some c → ¬ Horiz t j → j = i

section
variable {single : Nat → Bool → W} {orient : Nat → Bool} {hist : List (K × OutputEvent K)} {t t' : Topo K W}
  {close : Nat → Nat → K → K → Bool}

theorem endAdjacent_below (hsingle : ∀ s b, single s (!b) = - single s b) (hr : Run single orient hist [] t)
    (h : NoneBelow close t) : EndAdjacent close t := by
  intro c i hi hco
  have inv := hr.inv hsingle
  have hends := (C24_one_open single orient hsingle hist [] t hr).2.2 rfl
  obtain ⟨q, hq, _⟩ := hends ⟨i, false⟩ hi
  obtain ⟨a, b, hrun, hne, _⟩ := hco.close
  refine (inv.adj i c hi hco.west (fun j hj hw hh => h c i hi hco j hj hw (fun ⟨a, b, h1, h2⟩ => hh a b h1 h2)) ?_).2 q (by rw [← hco.stop]; exact hq) hq
  intro a' b' hrun'
  obtain ⟨p, q, k1, k2, k3, k4⟩ := hrun
  obtain ⟨rfl, rfl⟩ := runs_iff k1 k2 k3 k4 hrun'
  exact hne

theorem endAdjacent_of (hsingle : ∀ s b, single s (!b) = - single s b) (hr : Run single orient hist [] t)
    (h : NoneBetween close t) : EndAdjacent close t := endAdjacent_below hsingle hr fun c i hi hco j hj hw _ => h c i hi hco j hj hw

theorem ctx_of (hsingle : ∀ s b, single s (!b) = - single s b) (hr : Run single orient hist [] t)
    (h : EndAdjacent close t) : ∃ B U, Ctx single close t B U := by
  have inv := hr.inv hsingle
  have hends := (C24_one_open single orient hsingle hist [] t hr).2.2 rfl
  obtain ⟨B, hs, hl⟩ := inv.shape
  have : ∀ p, ∃ ups, p < t.points.length → Ring t.nb (ringList (B p) (hIn B p) ups) ∧
      ∀ h, h ∈ ringList (B p) (hIn B p) ups ↔ t.pointIdx h = some p := by
    intro p
    by_cases hp : p < t.points.length
    · obtain ⟨ups, h⟩ := hs.ring p hp
      exact ⟨ups, fun _ => h⟩
    · exact ⟨[], fun hc => absurd hc hp⟩
  choose U hU using this
  refine ⟨B, U, inv.good, hs, hl, hU, ?_, ?_, h⟩
  · intro i hi
    obtain ⟨q, hq, _⟩ := hends ⟨i, false⟩ hi
    exact ⟨q, hq⟩
  · intro h p hp
    exact C25_local single orient hsingle hist [] t hr h p hp

theorem merged_of (hsingle : ∀ s b, single s (!b) = - single s b) (hr : Run single orient hist [] t)
    (h : EndAdjacent close t) (hm : mergeCoincident close t = some t') :
    ∃ B U, Ctx single close t B U ∧ MInv close t B U t' t.n := by
  obtain ⟨B, U, C⟩ := ctx_of hsingle hr h
  obtain ⟨t'', h1, h2⟩ := C.merge
  rw [hm] at h1
  have : t' = t'' := by simpa using h1
  exact ⟨B, U, C, this ▸ h2⟩

/-! ## Without any hypothesis -/

theorem mergeOne_safe {L : Nat → List Half} (G : Geo t L) (hR : Rings t L) (k : Nat) (hk : k < t.n) :
    ∃ t', mergeOne close t k = some t' ∧ Same t t' ∧ Rings t' L := by
  cases hd : t.deleted k with
  | true => exact ⟨t, mergeOne_deleted close t k hd, Same.refl _, hR⟩
  | false =>
    obtain ⟨p, q, hp, hq, hpq⟩ := G.pts k hk
    have l1 := (G.lt _ _ hp).1
    have l2 := (G.lt _ _ hq).1
    have ha : pointOf t ⟨k, true⟩ = some t.points[p] := by unfold pointOf; rw [hp]; exact List.getElem?_eq_getElem l1
    have hb : pointOf t ⟨k, false⟩ = some t.points[q] := by unfold pointOf; rw [hq]; exact List.getElem?_eq_getElem l2
    obtain ⟨⟨n1, n2, _⟩, _⟩ := nbr_live G hR ⟨k, true⟩ p hp hd
    have hn := (G.lt _ _ n1).2
    unfold mergeOne
    rw [if_neg (by simp [hd])]
    dsimp only
    by_cases g1 : t.pointIdx ⟨k, false⟩ = t.pointIdx (t.nb ⟨k, true⟩).cw.other
    swap
    · rw [if_neg g1]; exact ⟨t, rfl, Same.refl _, hR⟩
    rw [if_pos g1, ha, hb]
    simp only
    split
    · exact ⟨t, rfl, Same.refl _, hR⟩
    · split
      · exact ⟨t, rfl, Same.refl _, hR⟩
      · generalize hnb : (t.nb ⟨k, true⟩).cw = nbr at *
        obtain ⟨c, f⟩ := nbr
        have hf : f = true := by
          cases f with
          | true => rfl
          | false =>
            simp only [Half.other, Bool.not_false] at g1
            rw [hq] at g1
            obtain ⟨p', q', h1, h2, h3⟩ := G.pts c hn
            rw [n1] at h2
            rw [← g1] at h1
            have e1 : q = p' := by simpa using h1
            have e2 : p = q' := by simpa using h2
            omega
        subst hf
        exact ⟨_, rfl, same_mergeInto t k c, mergeInto_rings G hR k c hk hn hd n2⟩

theorem mergeLoop_safe {L : Nat → List Half} (l : List Nat) : ∀ t : Topo K W, Geo t L → Rings t L → (∀ k ∈ l, k < t.n) →
    ∃ t', mergeLoop close l t = some t' ∧ Same t t' ∧ Rings t' L := by
  induction l with
  | nil => intro t _ hR _; exact ⟨t, rfl, Same.refl _, hR⟩
  | cons k l ih =>
    intro t G hR hl
    obtain ⟨t1, h1, s1, r1⟩ := mergeOne_safe (close := close) G hR k (hl k (by simp))
    obtain ⟨t2, h2, s2, r2⟩ := ih t1 (G.same s1) r1 (fun j hj => by rw [s1.n]; exact hl j (by simp [hj]))
    exact ⟨t2, by simp only [mergeLoop, h1]; exact h2, s1.trans s2, r2⟩

theorem geo_of (hsingle : ∀ s b, single s (!b) = - single s b) (hr : Run single orient hist [] t) :
    ∃ L, Geo t L ∧ Rings t L := by
  have inv := hr.inv hsingle
  obtain ⟨B, U, C⟩ := ctx_of (close := fun _ _ _ _ => false) hsingle hr (by
    intro c i hi h
    obtain ⟨_, _, _, _, hc⟩ := h.close
    simp at hc)
  exact ⟨_, C.geo, C.rings0⟩

/-- C26: merging never panics and never violates the debug assertion, points and segments stay where they are, and afterwards
the remaining half-segments at each point still form circular doubly linked lists of remaining half-segments. -/
theorem C26_safe (hsingle : ∀ s b, single s (!b) = - single s b) (hr : Run single orient hist [] t) :
    ∃ t', mergeCoincident close t = some t' ∧
      t'.n = t.n ∧ t'.points = t.points ∧ t'.pointIdx = t.pointIdx ∧ t'.origSeg = t.origSeg ∧ t'.scanWest = t.scanWest ∧
      ∀ h, Live t' h → (Live t' (t'.nb h).cw ∧ (t'.nb (t'.nb h).cw).ccw = h ∧ t'.pointIdx (t'.nb h).cw = t'.pointIdx h) ∧
        (Live t' (t'.nb h).ccw ∧ (t'.nb (t'.nb h).ccw).cw = h ∧ t'.pointIdx (t'.nb h).ccw = t'.pointIdx h) ∧
        ∀ h', Live t' h' → t'.pointIdx h' = t'.pointIdx h → ∃ k, (fun a => (t'.nb a).cw)^[k] h = h' := by
  obtain ⟨L, G, hR⟩ := geo_of hsingle hr
  obtain ⟨t', h1, s, r⟩ := mergeLoop_safe (close := close) (List.range t.n) t G hR (by simp)
  refine ⟨t', h1, s.n, s.points, s.pointIdx, s.origSeg, s.scanWest, ?_⟩
  intro h hl
  have G' := G.same s
  have hpt : ∃ p, t'.pointIdx h = some p := by
    obtain ⟨p, q, h2, h3, _⟩ := G'.pts h.idx hl.1
    obtain ⟨i, b⟩ := h
    cases b
    · exact ⟨q, h3⟩
    · exact ⟨p, h2⟩
  obtain ⟨p, hp⟩ := hpt
  obtain ⟨⟨c1, c2, c3⟩, ⟨c4, c5, c6⟩⟩ := nbr_live G' r h p hp hl.2
  refine ⟨⟨⟨(G'.lt _ _ c1).2, c2⟩, c3, by rw [c1, hp]⟩, ⟨⟨(G'.lt _ _ c4).2, c5⟩, c6, by rw [c4, hp]⟩, ?_⟩
  intro h' hl' hp'
  have hpl := (G'.lt _ _ hp).1
  have mem : ∀ a, Live t' a → t'.pointIdx a = some p → a ∈ (L p).filter (live t') := by
    intro a ha hap
    rw [List.mem_filter, G'.mem p hpl]; exact ⟨hap, by simp [live, ha.2]⟩
  exact (r p hpl).orbit (mem h hl hp) (mem h' hl' (by rw [hp', hp]))

/-! ## The result -/

/-- C26: if segments regarded as coincident are next to each other where they end, the merged topology is consistent: the
winding numbers recorded around each point still fit together. -/
theorem C26_consistent (hsingle : ∀ s b, single s (!b) = - single s b) (hr : Run single orient hist [] t)
    (h : EndAdjacent close t) (hm : mergeCoincident close t = some t') : Consistent t' := by
  obtain ⟨B, U, C, I⟩ := merged_of hsingle hr h hm
  have G := C.geo.same I.same
  have hpt : ∀ h, Live t' h → ∃ p, t'.pointIdx h = some p := by
    rintro ⟨i, b⟩ hl
    obtain ⟨p, q, h2, h3, _⟩ := G.pts i hl.1
    cases b
    · exact ⟨q, h3⟩
    · exact ⟨p, h2⟩
  refine ⟨?_, hpt, ?_, ?_⟩
  · intro h hl
    obtain ⟨p, hp⟩ := hpt h hl
    obtain ⟨⟨c1, c2, c3⟩, _⟩ := nbr_live G I.rings h p hp hl.2
    exact ⟨⟨(G.lt _ _ c1).2, c2⟩, c3, by rw [c1, hp]⟩
  · intro h hl
    obtain ⟨p, hp⟩ := hpt h hl
    have hpl := (G.lt _ _ hp).1
    refine I.fit p hpl h ?_
    rw [List.mem_filter, G.mem p hpl]; exact ⟨hp, by simp [live, hl.2]⟩
  · rw [I.same.n, I.same.scanWest]; exact C.good.west

theorem down_or_flat {B : Nat → Blk} {U : Nat → List Nat} (C : Ctx single close t B U) (i : Nat) (hi : i < t.n) :
    (¬ Horiz t i ∧ Down t B i) ∨ (Horiz t i ∧ ∃ p < t.points.length, i ∈ (B p).flats ∧ t.pointIdx ⟨i, true⟩ = some p) := by
  obtain ⟨p, hp, hps, hd | hf⟩ := C.shape.exists_blk C.good i hi
  · left
    refine ⟨?_, p, hp, hd⟩
    rintro ⟨a, b, ⟨p', q, k1, k2, k3, k4⟩, he⟩
    rw [hps] at k1
    have : p = p' := by simpa using k1
    subst this
    exact absurd he (ne_of_lt (C.shape.down p hp i hd q k2 a b k3 k4))
  · right
    have hp1 : p + 1 < t.points.length := by
      by_contra hc
      have hl := C.last
      unfold lastG at hl
      have : t.points.length = p + 1 := by omega
      rw [this] at hl; simp only [hIn] at hl
      rw [hl] at hf; simp at hf
    have l1 := List.getElem?_eq_getElem hp
    have l2 := List.getElem?_eq_getElem hp1
    exact ⟨⟨_, _, ⟨p, p + 1, hps, C.shape.flat_pt p hp1 i hf, l1, l2⟩,
      C.shape.flat p hp1 (by intro hc; rw [hc] at hf; simp at hf) _ _ l1 l2⟩, p, hp, hf, hps⟩

/-- C54: horizontal segments. All horizontal segments `a, ..., e` that start at one point end at one point, and at most one of
them remains. If one remains, it separates the region below all of them from the region above all of them; if none remains
these two regions are the same. -/
theorem C54_horizontal (hsingle : ∀ s b, single s (!b) = - single s b) (hr : Run single orient hist [] t)
    (h : EndAdjacent close t) (hm : mergeCoincident close t = some t') (i : Nat) (hi : i < t.n) (hh : Horiz t i) :
    ∃ a e, a ≤ i ∧ i ≤ e ∧ e < t.n ∧
      (∀ j, a ≤ j ∧ j ≤ e ↔ j < t.n ∧ Horiz t j ∧ t.pointIdx ⟨j, true⟩ = t.pointIdx ⟨i, true⟩) ∧
      (∀ j, a ≤ j → j ≤ e → t.pointIdx ⟨j, false⟩ = t.pointIdx ⟨i, false⟩) ∧
      (∀ j, a < j → j ≤ e → (t.winding j).cw = (t.winding (j - 1)).ccw) ∧
      (((∀ j, a ≤ j → j ≤ e → t'.deleted j = true) ∧ (t.winding a).cw = (t.winding e).ccw) ∨
        ∃ f, a ≤ f ∧ f ≤ e ∧ (∀ j, a ≤ j → j ≤ e → (t'.deleted j = false ↔ j = f)) ∧
          (t'.winding f).cw = (t.winding a).cw ∧ (t'.winding f).ccw = (t.winding e).ccw) := by
  obtain ⟨B, U, C, I⟩ := merged_of hsingle hr h hm
  rcases down_or_flat C i hi with ⟨hnh, _⟩ | ⟨_, p, hp, hf, hps⟩
  · exact absurd hh hnh
  have hf' := hf
  rw [mem_flats] at hf'
  have hblk := C.shape.blk_lt p hp
  have hg : 0 < (B p).g := by omega
  have H := C.bdl (Same.refl t) hp hg
  have hch := H.chain C.rings0 C.fit0 (fun i _ h2 => C.good.notDeleted i (by omega))
  refine ⟨(B p).m + (B p).d, (B p).m + (B p).d + (B p).g - 1, by omega, by omega, by omega, ?_, ?_, ?_, ?_⟩
  · intro j
    constructor
    · intro hj
      have hjf : j ∈ (B p).flats := by rw [mem_flats]; omega
      have hjn : j < t.n := by omega
      refine ⟨hjn, ?_, by rw [hps]; exact H.first j hj.1 (by omega)⟩
      rcases down_or_flat C j hjn with ⟨_, hd⟩ | ⟨q, _⟩
      · exact absurd hd (C.down_not_flat hp hjf)
      · exact q
    · rintro ⟨h1, h2, h3⟩
      rcases down_or_flat C j h1 with ⟨q, _⟩ | ⟨_, p', hp', hf2, hps2⟩
      · exact absurd h2 q
      · rw [hps, hps2] at h3
        have : p' = p := by simpa using h3
        subst this
        rw [mem_flats] at hf2; omega
  · intro j h1 h2
    rw [H.second j h1 (by omega), H.second i (by omega) (by omega)]
  · intro j h1 h2
    have := hch j (by omega) (by omega)
    rw [this]; unfold Rk; rw [if_neg (by omega)]
  · have hRk : Rk t.winding ((B p).m + (B p).d) ((B p).m + (B p).d + (B p).g) =
        (t.winding ((B p).m + (B p).d + (B p).g - 1)).ccw := by
      unfold Rk; rw [if_neg (by omega)]
    rcases I.flats p hp hblk hg with ⟨d1, d2⟩ | ⟨f, d1, d2, d3, d4, _⟩
    · left
      rw [hRk] at d2
      exact ⟨fun j h1 h2 => d1 j h1 (by omega), d2.symm⟩
    · right
      rw [hRk] at d4
      exact ⟨f, d1, by omega, fun j h1 h2 => d3 j h1 (by omega), by rw [d4], by rw [d4]⟩

/-- C53: other segments. Coincident segments have consecutive numbers. Going through the numbers, a segment is merged into the
previous one if the two are coincident and the previous one has not itself been merged (`Paired`). A segment that is merged
disappears; the one it is merged into keeps its left region, takes over the right region of the other, and disappears, too, if the
two regions are the same; everything else is unchanged. -/
theorem C53_pairs (hsingle : ∀ s b, single s (!b) = - single s b) (hr : Run single orient hist [] t)
    (h : EndAdjacent close t) (hm : mergeCoincident close t = some t') :
    (∀ c i, i < t.n → Coincident close t c i → c + 1 = i) ∧
    (∀ i < t.n, Paired close t i → t'.deleted i = true ∧
      (t'.winding (i - 1)).cw = (t.winding (i - 1)).cw ∧ (t'.winding (i - 1)).ccw = (t.winding i).ccw ∧
      (t'.deleted (i - 1) = true ↔ (t.winding (i - 1)).cw = (t.winding i).ccw)) ∧
    (∀ i < t.n, ¬ Horiz t i → ¬ Paired close t i → ¬ (i + 1 < t.n ∧ Paired close t (i + 1)) →
      t'.deleted i = false ∧ t'.winding i = t.winding i) := by
  obtain ⟨B, U, C, I⟩ := merged_of hsingle hr h hm
  refine ⟨fun c i hi hco => (C.coinc hi hco).1, ?_, ?_⟩
  · intro i hi hP
    obtain ⟨h1, h2, h3⟩ := I.pair i hi hP
    rw [h2]; exact ⟨h1, rfl, rfl, h3⟩
  · intro i hi hh hP hP'
    rcases down_or_flat C i hi with ⟨_, hd⟩ | ⟨hc, _⟩
    · exact I.plain i hi hd hP hP'
    · exact absurd hc hh

/-- C53, partially: a pair of coincident segments that does not belong to a larger group of coincident segments is replaced by at
most one segment that separates the regions on the two sides of the pair, by none iff these regions are the same.
Missing: larger groups; `C53_four` shows that the documented behaviour fails for them. -/
theorem C53_pair_partial (hsingle : ∀ s b, single s (!b) = - single s b) (hr : Run single orient hist [] t)
    (h : EndAdjacent close t) (hm : mergeCoincident close t = some t') (c i : Nat) (hi : i < t.n)
    (hco : Coincident close t c i) (hbefore : ∀ b, ¬ Coincident close t b c) :
    t'.deleted i = true ∧ (t'.deleted c = true ↔ (t.winding c).cw = (t.winding i).ccw) ∧
    (t'.winding c).cw = (t.winding c).cw ∧ (t'.winding c).ccw = (t.winding i).ccw := by
  obtain ⟨h1, h2, _⟩ := C53_pairs hsingle hr h hm
  have hci := h1 c i hi hco
  subst hci
  have hP : Paired close t (c + 1) := by
    refine ⟨hco, ?_⟩
    intro hc
    cases c with
    | zero => exact hc
    | succ b => exact hbefore b hc.1
  obtain ⟨q1, q2, q3, q4⟩ := h2 (c + 1) hi hP
  exact ⟨q1, q4, q2, q3⟩

/-- C55: every segment that remains separates two different regions, if input segments have non-zero contributions. -/
theorem C55_nontrivial (hsingle : ∀ s b, single s (!b) = - single s b) (hnz : ∀ s b, single s b ≠ 0)
    (hr : Run single orient hist [] t) (h : EndAdjacent close t) (hm : mergeCoincident close t = some t') (i : Nat)
    (hi : i < t.n) (hl : t'.deleted i = false) : (t'.winding i).cw ≠ (t'.winding i).ccw := by
  obtain ⟨B, U, C, I⟩ := merged_of hsingle hr h hm
  have nt : ∀ j < t.n, (t.winding j).cw ≠ (t.winding j).ccw := by
    intro j hj hc
    have := C.good.sgn j hj
    rw [hc] at this
    exact hnz _ _ (by simpa using this.symm)
  rcases down_or_flat C i hi with ⟨hnh, hd⟩ | ⟨_, p, hp, hf, _⟩
  · by_cases hP : Paired close t i
    · rw [(I.pair i hi hP).1] at hl; simp at hl
    · by_cases hP' : i + 1 < t.n ∧ Paired close t (i + 1)
      · obtain ⟨_, h2, h3⟩ := I.pair (i + 1) hP'.1 hP'.2
        simp only [Nat.add_sub_cancel] at h2 h3
        rw [h2]
        intro hc
        rw [h3.2 hc] at hl; simp at hl
      · rw [(I.plain i hi hd hP hP').2]; exact nt i hi
  · rw [mem_flats] at hf
    have hblk := C.shape.blk_lt p hp
    rcases I.flats p hp hblk (by omega) with ⟨d1, _⟩ | ⟨f, d1, d2, d3, d4, d5⟩
    · rw [d1 i hf.1 hf.2] at hl; simp at hl
    · have hif := (d3 i hf.1 hf.2).1 hl
      rw [hif, d4]
      exact d5 (fun j _ h2 => nt j (by omega))

/-- C55: the segments that remain keep the region on their left: it is the region to the right of the nearest remaining segment
to the left (nothing starts between coincident segments). -/
theorem C55_west (hsingle : ∀ s b, single s (!b) = - single s b) (hr : Run single orient hist [] t)
    (h : NoneBetween close t) (hm : mergeCoincident close t = some t') :
    ∀ i < t'.n, t'.deleted i = false → ∀ r, LiveWest t' (t'.scanWest i) r → (t'.winding i).cw = eastOf t' r := by
  obtain ⟨B, U, C, I⟩ := merged_of hsingle hr (endAdjacent_of hsingle hr h) hm
  have key : ∀ b d, d < b → d < t.n → WestOk t d → ¬ Paired close t d → (∀ e, e < t.n → Paired close t e → e ≠ d) →
      ∀ r, LiveWest t' (t.scanWest d) r → (t.winding d).cw = eastOf t' r := by
    intro b
    induction b with
    | zero => intro d hd; omega
    | succ b ih =>
      intro d hdb hdn hw hnP _ r hlw
      unfold WestOk at hw
      rw [hw]
      cases hc : t.scanWest d with
      | none =>
        rw [hc] at hlw
        cases hlw
        rfl
      | some j =>
        rw [hc] at hlw
        have hjd := C.good.west d hdn j hc
        have hjn : j < t.n := by omega
        have hjD : Down t B j := C.shape.westDown d hdn j hc
        -- `j` is not the left one of a merged pair
        have hnot : ¬ (j + 1 < t.n ∧ Paired close t (j + 1)) := by
          rintro ⟨h1, h2⟩
          have := h j (j + 1) h1 h2.1 d hdn hc
          rw [this] at hnP
          exact hnP h2
        by_cases hPj : Paired close t j
        · obtain ⟨p1, p2, p3⟩ := I.pair j hjn hPj
          obtain ⟨hj0, hco, hnPc⟩ := C.paired_succ hPj
          have hwj : t'.scanWest j = some (j - 1) := by rw [I.same.scanWest]; exact hco.west
          cases hlw with
          | live _ hl => rw [p1] at hl; simp at hl
          | skip _ _ _ hlw =>
            rw [hwj] at hlw
            cases hlw with
            | live _ hl => simp only [eastOf]; rw [p2]
            | skip _ _ hdel hlw =>
              have htriv := p3.1 hdel
              simp only [eastOf]
              rw [← htriv]
              rw [I.same.scanWest] at hlw
              refine ih (j - 1) (by omega) (by omega) ?_ hnPc ?_ r hlw
              · have hdd := (C.paired_down hjn hPj).2
                have := C50_scan_west single orient hsingle hist [] t hr (j - 1) (by omega)
                rcases this.2 with ⟨a, b, y, hrun⟩ | this
                · exfalso
                  obtain ⟨p, hp, hpd⟩ := hdd
                  rcases down_or_flat C (j - 1) (by omega) with ⟨q, _⟩ | ⟨_, p', hp', hf', _⟩
                  · exact q ⟨_, _, hrun, rfl⟩
                  · exact C.down_not_flat hp' hf' ⟨p, hp, hpd⟩
                · unfold WestOk eastOf
                  cases hq : t.scanWest (j - 1) with
                  | none => rw [hq] at this; exact this
                  | some z => rw [hq] at this; exact this
              · intro e _ hPe he
                subst he; exact hnPc hPe
        · obtain ⟨p1, p2⟩ := I.plain j hjn hjD hPj hnot
          cases hlw with
          | live _ hl => simp only [eastOf]; rw [p2]
          | skip _ _ hdel _ => rw [p1] at hdel; simp at hdel
  intro i hi hl r hlw
  rw [I.same.n] at hi
  rw [I.same.scanWest] at hlw
  rcases down_or_flat C i hi with ⟨hnh, hd⟩ | ⟨hh, p, hp, hf, _⟩
  · have hnP : ¬ Paired close t i := by
      intro hP
      rw [(I.pair i hi hP).1] at hl; simp at hl
    have hw : WestOk t i := by
      have := C50_scan_west single orient hsingle hist [] t hr i hi
      rcases this.2 with ⟨a, b, y, hrun⟩ | this
      · exact absurd ⟨_, _, hrun, rfl⟩ hnh
      · unfold WestOk eastOf
        cases hq : t.scanWest i with
        | none => rw [hq] at this; exact this
        | some z => rw [hq] at this; exact this
    have hcw : (t'.winding i).cw = (t.winding i).cw := by
      by_cases hP' : i + 1 < t.n ∧ Paired close t (i + 1)
      · obtain ⟨_, h2, _⟩ := I.pair (i + 1) hP'.1 hP'.2
        simp only [Nat.add_sub_cancel] at h2
        rw [h2]
      · rw [(I.plain i hi hd hnP hP').2]
    rw [hcw]
    exact key (i + 1) i (by omega) hi hw hnP (fun e _ hPe he => hnP (he ▸ hPe)) r hlw
  · have hf' := hf
    rw [mem_flats] at hf'
    have hblk := C.shape.blk_lt p hp
    obtain ⟨w1, w2⟩ := C.shape.westG p hp i hf
    rcases I.flats p hp hblk (by omega) with ⟨d1, _⟩ | ⟨f, d1, d2, d3, d4, d5⟩
    · rw [d1 i hf'.1 hf'.2] at hl; simp at hl
    · have hif := (d3 i hf'.1 hf'.2).1 hl
      subst hif
      rw [d4]
      rw [w1] at hlw
      have hna : ¬ Paired close t ((B p).m + (B p).d) := by
        intro hP
        have := (C.paired_down (by omega) hP).1
        exact C.down_not_flat hp (by rw [mem_flats]; omega) this
      exact key _ _ (Nat.lt_succ_self _) (by omega) w2 hna (fun e _ hPe he => hna (he ▸ hPe)) r hlw

/-! ## Sweep, merging and contours together -/

/-- C56: the contours of the merged topology of any complete execution of the sweep can be computed without panics or endless
loops; they are closed paths that visit no point twice; each remaining segment that separates the set from its complement is in
exactly one of them, exactly once, other segments are in none; each is traversed with the set on the left; and the contours can be
grouped into trees with outer contours as roots. -/
theorem C56_contours (hsingle : ∀ s b, single s (!b) = - single s b) (hr : Run single orient hist [] t)
    (h : EndAdjacent close t) (inside : W → Bool) :
    ∃ t' cs, mergeCoincident close t = some t' ∧ (∀ fuel, 2 * t.n < fuel → contours t' inside fuel = some cs) ∧
      (∀ C ∈ cs, Closed t' C.path ∧ Simple t' C.path) ∧
      ((cs.flatMap Contour.path).map Half.idx).Perm
        ((List.range t.n).filter fun i => !t'.deleted i && (inside (t'.winding i).cw != inside (t'.winding i).ccw)) ∧
      (∀ C ∈ cs, ∀ x ∈ C.path,
        if x.first = false then inside (t'.winding x.idx).ccw = true ∧ inside (t'.winding x.idx).cw = false
        else inside (t'.winding x.idx).cw = true ∧ inside (t'.winding x.idx).ccw = false) ∧
      ∃ gs, grouped cs cs.length = some gs ∧ gs.flatten.Perm (List.range cs.length) ∧
        ∀ g ∈ gs, ∃ r R, g.head? = some r ∧ cs[r]? = some R ∧ R.parent = none ∧ R.outer = true ∧ ∀ j, j ∈ g ↔ Under cs r j := by
  obtain ⟨t', hm, hn, _⟩ := C26_safe (close := close) hsingle hr
  have hc := C26_consistent hsingle hr h hm
  obtain ⟨cs, hcs⟩ := C27_terminates t' inside hc
  rw [hn] at hcs
  have hcs1 := hcs (2 * t.n + 1) (by omega)
  refine ⟨t', cs, hm, hcs, ?_, ?_, ?_, ?_⟩
  · exact fun C hC => C28_closed_simple t' inside hc _ cs hcs1 C hC
  · have := C27_partition t' inside hc _ cs hcs1
    rw [hn] at this; exact this
  · exact fun C hC x hx => C51_left t' inside hc _ cs hcs1 C hC x hx
  · exact C30_contours t' inside hc _ cs hcs1

/-- C56: if nothing starts between coincident segments, a contour of the merged topology that shares no point with another contour
has the flag and parent determined by what is to the left of its first segment. -/
theorem C56_labels_partial (hsingle : ∀ s b, single s (!b) = - single s b) (hr : Run single orient hist [] t)
    (h : NoneBetween close t) (hm : mergeCoincident close t = some t') (inside : W → Bool) (h0 : inside 0 = false)
    (fuel : Nat) (cs : List Contour) (hcs : contours t' inside fuel = some cs) (c : Nat) (C : Contour) (hC : cs[c]? = some C)
    (hns : ¬ SharesPoint t' cs c C) :
    ∃ x ∈ C.path, (∀ x' ∈ C.path, x.idx ≤ x'.idx) ∧
      C.outer = !inside (t'.winding x.idx).cw ∧
      ∃ w, BdyWest t' inside (t'.scanWest x.idx) w ∧
        (w = none → C.parent = none) ∧
        ∀ j, w = some j → ∃ (d : Nat) (D : Contour) (y : Half), cs[d]? = some D ∧ y ∈ D.path ∧ y.idx = j ∧
          C.parent = if C.outer = D.outer then D.parent else some d :=
  C52_label_partial t' inside (C26_consistent hsingle hr (endAdjacent_of hsingle hr h) hm) (C55_west hsingle hr h hm) h0 fuel cs
    hcs c C hC hns

end

/-! ## Examples -/

def unit : Nat → Bool → Int := fun _ b => if b then 1 else -1
theorem unit_neg (s : Nat) (b : Bool) : unit s (!b) = - unit s b := by cases b <;> simp [unit]
theorem unit_ne (s : Nat) (b : Bool) : unit s b ≠ 0 := by cases b <;> simp [unit]
def always : Nat → Nat → Int → Int → Bool := fun _ _ _ _ => true

/-- Four segments from (0,0) to (0,10), two in each direction. -/
def fourOrient : Nat → Bool := fun s => s < 2
def fourTop : List (OutputEvent Int) := (List.range 4).map fun s => ⟨0, false, 0, true, s, some s, none⟩
def fourBot : List (OutputEvent Int) := (List.range 4).map fun s => ⟨0, true, 0, false, s, none, some s⟩
def fourSteps : List (StepE Int) := [⟨[], [], 0, fourTop, [], fourTop, none, false⟩, ⟨[], [], 10, fourBot, fourBot, [], none, false⟩]

theorem four_run : ∃ (hist : List (Int × OutputEvent Int)) (t : Topo Int Int), Run unit fourOrient hist [] t ∧
    decide (t.n = 4 ∧ t.points = [(0, 0), (0, 10)] ∧ (∀ i ∈ List.range 4, t.pointIdx ⟨i, true⟩ = some 0 ∧ t.pointIdx ⟨i, false⟩ = some 1) ∧
      (∀ i ∈ List.range 4, t.scanWest i = if i = 0 then none else some (i - 1)) ∧
      (t.winding 0).cw = 0 ∧ (t.winding 3).ccw = 0 ∧
      ((mergeCoincident always t).map fun t' => (List.range 4).map fun i => (t'.deleted i, (t'.winding i).cw, (t'.winding i).ccw)) =
        some [(false, 0, 2), (true, 1, 2), (false, 2, 0), (true, 1, 0)]) = true :=
  run_exists unit fourOrient fourSteps _ (by decide +kernel)

/-- C53 fails for larger groups: four coincident segments with net winding number zero are not removed, and they are not replaced by
a single segment either: two of them remain. -/
theorem C53_four : ∃ (hist : List (Int × OutputEvent Int)) (t t' : Topo Int Int), Run unit fourOrient hist [] t ∧
    NoneBetween always t ∧ t.n = 4 ∧
    (Coincident always t 0 1 ∧ Coincident always t 1 2 ∧ Coincident always t 2 3) ∧ (t.winding 0).cw = (t.winding 3).ccw ∧
    mergeCoincident always t = some t' ∧ t'.deleted 0 = false ∧ t'.deleted 2 = false := by
  obtain ⟨hist, t, hr, hq⟩ := four_run
  rw [decide_eq_true_eq] at hq
  obtain ⟨q1, q2, q3, q4, q5, q6, q7⟩ := hq
  simp only [List.mem_range] at q3 q4
  obtain ⟨t', h1, h2⟩ := Option.map_eq_some_iff.1 q7
  have co : ∀ c, c + 1 < 4 → Coincident always t c (c + 1) := by
    intro c hc
    refine ⟨by rw [q4 _ hc]; simp, by rw [(q3 _ hc).1, (q3 c (by omega)).1], by rw [(q3 _ hc).2, (q3 c (by omega)).2],
      (0, 0), (0, 10), ⟨0, 1, (q3 _ hc).1, (q3 _ hc).2, by rw [q2]; rfl, by rw [q2]; rfl⟩, by decide, rfl⟩
  refine ⟨hist, t, t', hr, ?_, q1, ⟨co 0 (by omega), co 1 (by omega), co 2 (by omega)⟩, by rw [q5, q6], h1, ?_, ?_⟩
  · intro c i hi hco j hj hw
    rw [q1] at hi hj
    have h3 := hco.west
    rw [q4 i hi] at h3
    rw [q4 j hj] at hw
    by_cases i0 : i = 0
    · simp [i0] at h3
    · by_cases j0 : j = 0
      · simp [j0] at hw
      · simp [i0] at h3; simp [j0] at hw; omega
  · simp [List.range, List.range.loop] at h2; exact h2.1.1
  · simp [List.range, List.range.loop] at h2; exact h2.2.2.1.1

/-- Two segments from (0,0) to (0,10), in opposite directions: both are removed. -/
def twoOrient : Nat → Bool := fun s => s < 1
def twoTop : List (OutputEvent Int) := (List.range 2).map fun s => ⟨0, false, 0, true, s, some s, none⟩
def twoBot : List (OutputEvent Int) := (List.range 2).map fun s => ⟨0, true, 0, false, s, none, some s⟩
def twoSteps : List (StepE Int) := [⟨[], [], 0, twoTop, [], twoTop, none, false⟩, ⟨[], [], 10, twoBot, twoBot, [], none, false⟩]

example : ∃ (hist : List (Int × OutputEvent Int)) (t : Topo Int Int), Run unit twoOrient hist [] t ∧
    decide (t.n = 2 ∧ ((mergeCoincident always t).map fun t' => (List.range 2).map fun i => t'.deleted i) = some [true, true]) = true :=
  run_exists unit twoOrient twoSteps _ (by decide +kernel)

/-- Two squares on top of each other, sharing the edge from (0,4) to (4,4): horizontals `a, e` of the bundle in both directions.
Segments 0, 1: vertical edges of the upper square; 2, 3: of the lower one; 4, 5, 6, 7: horizontal edges. -/
def sqOrient : Nat → Bool := fun s => s == 0 || s == 2 || s == 5 || s == 7
def sqTop : List (OutputEvent Int) :=
  [⟨0, false, 0, true, 0, some 0, none⟩, ⟨0, false, 4, false, 4, none, none⟩, ⟨4, false, 4, true, 1, some 1, none⟩]
def sqMid : List (OutputEvent Int) :=
  [⟨0, true, 0, false, 0, none, some 0⟩, ⟨0, false, 0, true, 2, some 0, none⟩, ⟨0, false, 4, false, 5, none, none⟩,
    ⟨0, false, 4, false, 6, none, none⟩, ⟨4, true, 4, false, 1, none, some 1⟩, ⟨4, false, 4, true, 3, some 1, none⟩]
def sqBot : List (OutputEvent Int) :=
  [⟨0, true, 0, false, 2, none, some 0⟩, ⟨0, false, 4, false, 7, none, none⟩, ⟨4, true, 4, false, 3, none, some 1⟩]

def sqSteps : List (StepE Int) :=
  [⟨[], [], 0, sqTop, [], [⟨0, false, 0, true, 0, some 0, none⟩, ⟨4, false, 4, true, 1, some 1, none⟩], none, false⟩,
   ⟨[], [], 4, sqMid, [⟨0, true, 0, false, 0, none, some 0⟩, ⟨4, true, 4, false, 1, none, some 1⟩],
     [⟨0, false, 0, true, 2, some 0, none⟩, ⟨4, false, 4, true, 3, some 1, none⟩], none, false⟩,
   ⟨[], [], 8, sqBot, [⟨0, true, 0, false, 2, none, some 0⟩, ⟨4, true, 4, false, 3, none, some 1⟩], [], none, false⟩]

theorem sq_run : ∃ (hist : List (Int × OutputEvent Int)) (t : Topo Int Int), Run unit sqOrient hist [] t ∧
    decide (t.n = 8 ∧ (∀ i ∈ List.range 8, ∀ c ∈ t.scanWest i, t.pointIdx ⟨i, true⟩ ≠ t.pointIdx ⟨c, true⟩ ∨ t.pointIdx ⟨i, false⟩ ≠ t.pointIdx ⟨c, false⟩) ∧
      t.pointIdx ⟨5, true⟩ = some 2 ∧ t.pointIdx ⟨5, false⟩ = some 3 ∧ t.points[2]? = some (0, 4) ∧ t.points[3]? = some (4, 4) ∧
      ((mergeCoincident always t).map fun t' =>
        (List.range 8).map fun i => (t'.deleted i, (t'.winding i).cw, (t'.winding i).ccw)) =
        some [(false, 0, 1), (false, 1, 0), (false, 1, 0), (false, 0, 1), (true, 1, 1), (true, 2, 1), (false, 1, 0), (false, 0, 1)]) = true :=
  run_exists unit sqOrient sqSteps _ (by decide +kernel)

/-- The hypotheses of C54 and C55 hold for the two squares, and the bundle in the middle has several horizontal segments. -/
theorem C54_nonvacuous : ∃ (hist : List (Int × OutputEvent Int)) (t t' : Topo Int Int), Run unit sqOrient hist [] t ∧
    NoneBetween always t ∧ EndAdjacent always t ∧ Horiz t 5 ∧ 5 < t.n ∧ mergeCoincident always t = some t' := by
  obtain ⟨hist, t, hr, hq⟩ := sq_run
  rw [decide_eq_true_eq] at hq
  obtain ⟨q1, q2, q3, q4, q5, q6, q7⟩ := hq
  obtain ⟨t', h1, _⟩ := Option.map_eq_some_iff.1 q7
  have hn : NoneBetween always t := by
    intro c i hi hco
    rcases q2 i (by rw [q1] at hi; simpa using hi) c (by rw [hco.west]; rfl) with h | h
    · exact absurd hco.start h
    · exact absurd hco.stop h
  exact ⟨hist, t, t', hr, hn, endAdjacent_of unit_neg hr hn, ⟨_, _, ⟨2, 3, q3, q4, q5, q6⟩, rfl⟩, by omega, h1⟩

/-- Segments 0, 1 (down) and 2, 3 (up) from (0,0) to (0,20); segments 4, 5 from (0,10) to (0,20), between 0 and 1. -/
def wedgeOrient : Nat → Bool := fun s => s == 0 || s == 1 || s == 4
def wedgeClose : Nat → Nat → Int → Int → Bool := fun i c _ _ => i == 1 && c == 0
def wedgeTop : List (OutputEvent Int) := (List.range 4).map fun s => ⟨0, false, 0, true, s, some s, none⟩
def wedgeMid : List (OutputEvent Int) := [⟨0, false, 0, true, 4, some 1, none⟩, ⟨0, false, 0, true, 5, some 2, none⟩]
def wedgeBot : List (OutputEvent Int) := [⟨0, true, 0, false, 0, none, some 0⟩, ⟨0, true, 0, false, 4, none, some 1⟩,
  ⟨0, true, 0, false, 5, none, some 2⟩, ⟨0, true, 0, false, 1, none, some 3⟩, ⟨0, true, 0, false, 2, none, some 4⟩,
  ⟨0, true, 0, false, 3, none, some 5⟩]
def wedgeSteps : List (StepE Int) := [⟨[], [], 0, wedgeTop, [], wedgeTop, none, false⟩,
  ⟨[0], [1, 2, 3], 10, wedgeMid, [], wedgeMid, some 1, false⟩, ⟨[], [], 20, wedgeBot, wedgeBot, [], none, false⟩]

theorem wedge_run : ∃ (hist : List (Int × OutputEvent Int)) (t : Topo Int Int), Run unit wedgeOrient hist [] t ∧
    decide (t.n = 6 ∧ ((mergeCoincident wedgeClose t).map fun t' =>
      decide (t'.deleted 0 = false ∧ t'.windingCw ⟨0, false⟩ ≠ t'.windingCcw (t'.nb ⟨0, false⟩).cw)) = some true) = true :=
  run_exists unit wedgeOrient wedgeSteps _ (by decide +kernel)

/-- The hypothesis of `C26_consistent` cannot be dropped: here segments 0 and 1 are regarded as coincident although others start
between them, and the merged topology has inconsistent winding numbers around the point where they end. -/
theorem C26_wedge : ∃ (hist : List (Int × OutputEvent Int)) (t t' : Topo Int Int), Run unit wedgeOrient hist [] t ∧
    mergeCoincident wedgeClose t = some t' ∧ ¬ Consistent t' := by
  obtain ⟨hist, t, hr, hq⟩ := wedge_run
  rw [decide_eq_true_eq] at hq
  obtain ⟨q1, q2⟩ := hq
  obtain ⟨t', h1, h2⟩ := Option.map_eq_some_iff.1 q2
  rw [decide_eq_true_eq] at h2
  refine ⟨hist, t, t', hr, h1, fun hc => h2.2 (hc.fit _ ⟨?_, h2.1⟩)⟩
  obtain ⟨t'', k1, k2, _⟩ := C26_safe (close := wedgeClose) unit_neg hr
  rw [h1] at k1
  have : t' = t'' := by simpa using k1
  rw [this, k2]; show 0 < t.n; omega

end Verif.Merge
