import Verif.Sweep.Spec
import Mathlib.Algebra.BigOperators.Group.Finset.Basic
import Mathlib.Algebra.BigOperators.Group.List.Basic
import Mathlib.Tactic.Abel

/-! In every range the segments that start and the segments that end at a position balance. -/

namespace Verif.Sweep
open Verif.Curve Verif.Range Verif.Topo
set_option linter.unusedSectionVars false

variable {K : Type} [LinearOrder K] {W : Type} [AddCommGroup W]

/-- The first point of the segment along its contour. -/
def Env.oStart (E : Env K) (s : Nat) : K × K := if E.orient s then (E.startX s, E.startY s) else (E.endX s, E.endY s)
/-- The last point of the segment along its contour. -/
def Env.oEnd (E : Env K) (s : Nat) : K × K := if E.orient s then (E.endX s, E.endY s) else (E.startX s, E.startY s)

/-- The segments form closed contours, `single` is the same along a contour, and horizontal segments go to the right. -/
structure Env.Contours (E : Env K) (single : Nat → Bool → W) : Prop where
  next : ∀ s ∈ E.segs, ∃ s' ∈ E.segs, E.contourNext s = some s' ∧ E.contourPrev s' = some s ∧ E.oEnd s = E.oStart s' ∧
    single s' true = single s true
  prev : ∀ s ∈ E.segs, ∃ s' ∈ E.segs, E.contourPrev s = some s' ∧ E.contourNext s' = some s
  neg : ∀ s ∈ E.segs, single s false = - single s true
  flat : ∀ s ∈ E.segs, E.isHorizontal s = true → E.startX s ≤ E.endX s

/-- Some segment starts or ends at the height `y`. -/
def Env.Corner (E : Env K) (y : K) : Prop := ∃ c ∈ E.segs, E.startY c = y ∨ E.endY c = y

/-- The segments `l` are in order at the height `y`, up to the tolerance, if a segment starts or ends there. -/
structure OrdC (E : Env K) (y : K) (l : List Nat) : Prop where
  upper : E.Corner y → ∀ (i j a b : Nat), i ≤ j → l[i]? = some a → l[j]? = some b → E.atY a y < E.upper2 b y
  lower : E.Corner y → ∀ (i j a b : Nat), i ≤ j → l[i]? = some a → l[j]? = some b → E.lower2 a y ≤ E.atY b y

/-- `s'` follows or precedes `s` in its contour at the point `(x, y)`. -/
def Adj (E : Env K) (x y : K) (s s' : Nat) : Prop :=
  (E.contourNext s = some s' ∧ E.oEnd s = (x, y)) ∨ (E.contourPrev s = some s' ∧ E.oStart s = (x, y))

def Touches (E : Env K) (x y : K) (s : Nat) : Prop := (E.startX s = x ∧ E.startY s = y) ∨ (E.endX s = x ∧ E.endY s = y)

variable {E : Env K} {single : Nat → Bool → W}

theorem oStart_touches {s : Nat} {x y : K} (h : E.oStart s = (x, y)) : Touches E x y s := by
  unfold Env.oStart at h
  split_ifs at h <;> simp only [Prod.mk.injEq] at h
  · exact .inl h
  · exact .inr h

theorem oEnd_touches {s : Nat} {x y : K} (h : E.oEnd s = (x, y)) : Touches E x y s := by
  unfold Env.oEnd at h
  split_ifs at h <;> simp only [Prod.mk.injEq] at h
  · exact .inr h
  · exact .inl h

theorem Adj.touches {s : Nat} {x y : K} {s' : Nat} (h : Adj E x y s s') : Touches E x y s := by
  rcases h with h | h
  · exact oEnd_touches h.2
  · exact oStart_touches h.2

theorem Adj.symm (hC : E.Contours single) {s : Nat} (hs : s ∈ E.segs) {x y : K} {s' : Nat} (h : Adj E x y s s') : s' ∈ E.segs ∧ Adj E x y s' s := by
  rcases h with ⟨h1, h2⟩ | ⟨h1, h2⟩
  · obtain ⟨t, t1, t2, t3, t4, t5⟩ := hC.next s hs
    rw [t2, Option.some.injEq] at h1
    subst h1
    exact ⟨t1, .inr ⟨t3, by rw [← t4, h2]⟩⟩
  · obtain ⟨t, t1, t2, t3⟩ := hC.prev s hs
    rw [t2, Option.some.injEq] at h1
    subst h1
    obtain ⟨u, u1, u2, u3, u4, u5⟩ := hC.next t t1
    rw [u2, Option.some.injEq] at t3
    subst t3
    exact ⟨t1, .inl ⟨u2, by rw [u4, h2]⟩⟩

/-- The two segments of an entry that continues are each other's neighbours. -/
theorem cont_partner (hC : E.Contours single) {y : K} {e : Entry} {o : Nat} (hseg : e.seg ∈ E.segs) (ho : o ∈ E.segs) (hnh : E.isHorizontal e.seg = false)
    (k4 : E.startY e.seg = y) (k5 : E.neighborAbove e.seg = some o) (k6 : E.startY o < y) {s s' : Nat} {x : K}
    (hs : s = e.seg ∨ s = o) (h : Adj E x y s s') : s' = e.seg ∨ s' = o := by
  have hne : E.endY e.seg ≠ y := by
    intro heq
    unfold Env.isHorizontal at hnh
    rw [decide_eq_false_iff_not] at hnh
    exact hnh (by rw [k4, heq])
  unfold Env.neighborAbove at k5
  rcases hs with rfl | rfl
  · right
    rcases h with ⟨h1, h2⟩ | ⟨h1, h2⟩
    · by_cases hor : E.orient e.seg = true
      · exfalso
        unfold Env.oEnd at h2
        rw [if_pos hor, Prod.mk.injEq] at h2
        exact hne h2.2
      · rw [if_neg hor, h1, Option.some.injEq] at k5
        exact k5
    · by_cases hor : E.orient e.seg = true
      · rw [if_pos hor, h1, Option.some.injEq] at k5
        exact k5
      · exfalso
        unfold Env.oStart at h2
        rw [if_neg hor, Prod.mk.injEq] at h2
        exact hne h2.2
  · left
    have hnext : E.oEnd s = (x, y) ∧ E.contourNext s = some s' → s' = e.seg := by
      rintro ⟨h2, h1⟩
      have hor : E.orient s = true := by
        by_contra hor
        unfold Env.oEnd at h2
        rw [if_neg hor, Prod.mk.injEq] at h2
        rw [h2.2] at k6
        exact lt_irrefl _ k6
      by_cases hoe : E.orient e.seg = true
      · rw [if_pos hoe] at k5
        obtain ⟨t, t1, t2, t3⟩ := hC.prev _ hseg
        rw [t2, Option.some.injEq] at k5
        subst k5
        rw [t3, Option.some.injEq] at h1
        exact h1.symm
      · exfalso
        rw [if_neg hoe] at k5
        obtain ⟨t, t1, t2, t3, t4, _⟩ := hC.next _ hseg
        rw [t2, Option.some.injEq] at k5
        subst k5
        unfold Env.oEnd Env.oStart at t4
        rw [if_neg hoe, if_pos hor, Prod.mk.injEq, k4] at t4
        rw [← t4.2] at k6
        exact lt_irrefl _ k6
    have hprev : E.oStart s = (x, y) ∧ E.contourPrev s = some s' → s' = e.seg := by
      rintro ⟨h2, h1⟩
      have hor : ¬ E.orient s = true := by
        intro hor
        unfold Env.oStart at h2
        rw [if_pos hor, Prod.mk.injEq] at h2
        rw [h2.2] at k6
        exact lt_irrefl _ k6
      by_cases hoe : E.orient e.seg = true
      · exfalso
        rw [if_pos hoe] at k5
        obtain ⟨t, t1, t2, t3⟩ := hC.prev _ hseg
        rw [t2, Option.some.injEq] at k5
        subst k5
        obtain ⟨u, u1, u2, u3, u4, _⟩ := hC.next _ t1
        rw [t3, Option.some.injEq] at u2
        subst u2
        unfold Env.oEnd Env.oStart at u4
        rw [if_pos hoe, if_neg hor, Prod.mk.injEq, k4] at u4
        rw [u4.2] at k6
        exact lt_irrefl _ k6
      · rw [if_neg hoe] at k5
        obtain ⟨t, t1, t2, t3, t4, _⟩ := hC.next _ hseg
        rw [t2, Option.some.injEq] at k5
        subst k5
        rw [t3, Option.some.injEq] at h1
        exact h1.symm
    rcases h with ⟨h1, h2⟩ | ⟨h1, h2⟩
    · exact hnext ⟨h2, h1⟩
    · exact hprev ⟨h2, h1⟩

/-- The segments of a range. -/
def rangeSegs (s : State K) (c : CI) : List Nat := lineIds (slice s.line c) ++ horizOf s c

theorem mem_lineIds_slice {l : List Entry} {c : CI} {x : Nat} :
    x ∈ lineIds (slice l c) ↔ ∃ (j : Nat) (e : Entry), c.start ≤ j ∧ j < c.stop ∧ l[j]? = some e ∧ x ∈ e.ids := by
  rw [mem_lineIds]
  constructor
  · rintro ⟨e, h1, h2⟩
    obtain ⟨j, q1, q2, q3⟩ := mem_slice.1 h1
    exact ⟨j, e, q1, q2, q3, h2⟩
  · rintro ⟨j, e, q1, q2, q3, h2⟩
    exact ⟨e, mem_slice.2 ⟨j, q1, q2, q3⟩, h2⟩

theorem mem_horizOf {s : State K} {c : CI} {x : Nat} :
    x ∈ horizOf s c ↔ ∃ a b k : Nat, c.hz = some (a, b) ∧ a ≤ k ∧ k < b ∧ s.horiz[k]? = some x := by
  unfold horizOf
  cases hz : c.hz with
  | none => simp
  | some h =>
    obtain ⟨a, b⟩ := h
    dsimp only
    constructor
    · intro hx
      obtain ⟨k, hk⟩ := List.mem_iff_getElem?.1 hx
      have hlt := (List.getElem?_eq_some_iff.1 hk).1
      rw [List.length_take] at hlt
      rw [List.getElem?_take, if_pos (by omega), List.getElem?_drop] at hk
      exact ⟨a, b, a + k, rfl, by omega, by omega, hk⟩
    · rintro ⟨a', b', k, h1, h2, h3, h4⟩
      simp only [Option.some.injEq, Prod.mk.injEq] at h1
      obtain ⟨rfl, rfl⟩ := h1
      apply List.mem_iff_getElem?.2
      refine ⟨k - a, ?_⟩
      rw [List.getElem?_take, if_pos (by omega), List.getElem?_drop, ← h4]
      congr 1; omega

section
variable {S0 : List Nat} {M L : List Entry} {s : State K}

theorem ChgSpec.hz_unique {y : K} {snp h : List Nat} {L' : List Entry} {chg : List CI} (hC : ChgSpec E y L snp h L' chg) {c d : CI}
    (hc : c ∈ chg) (hd : d ∈ chg) {a b a' b' k : Nat} (h1 : c.hz = some (a, b)) (h2 : d.hz = some (a', b')) (k1 : a ≤ k) (k2 : k < b)
    (k3 : a' ≤ k) (k4 : k < b') : c = d := by
  rcases pairwise_or hC.hzOrd hc hd with h3 | h3 | h3
  · exact h3
  · have := h3 _ _ _ _ h1 h2
    omega
  · have := h3 _ _ _ _ h2 h1
    omega

theorem ChgSpec.unique {y : K} {snp h : List Nat} {L' : List Entry} {chg : List CI} (hC : ChgSpec E y L snp h L' chg) {c d : CI}
    (hc : c ∈ chg) (hd : d ∈ chg) {j : Nat} (k1 : c.start ≤ j) (k2 : j < c.stop) (k3 : d.start ≤ j) (k4 : j < d.stop) : c = d := by
  rcases pairwise_or hC.sep hc hd with h3 | h3 | h3
  · exact h3
  · omega
  · omega

/-- Every segment that has an end at this height is in the line or one of the horizontal segments. -/
theorem Finished.mem_all (hF : Finished E S0 M L s) (hs : E.Sched) {x : K} {a : Nat} (ha : a ∈ E.segs) (ht : Touches E x s.y a) :
    (E.isHorizontal a = true ∧ a ∈ s.horiz) ∨ (E.isHorizontal a = false ∧ ∃ (j : Nat) (e : Entry), s.line[j]? = some e ∧ a ∈ e.ids) := by
  have hd := hs.down a ha
  by_cases hh : E.isHorizontal a = true
  · left
    refine ⟨hh, (hF.horiz a).2 ⟨ha, hh, ?_⟩⟩
    unfold Env.isHorizontal at hh
    rw [decide_eq_true_eq] at hh
    rcases ht with h | h
    · exact h.2
    · rw [hh]; exact h.2
  · right
    rw [Bool.not_eq_true] at hh
    refine ⟨hh, ?_⟩
    have : a ∈ lineIds M := by
      rw [hF.mem]
      refine ⟨ha, hh, ?_⟩
      rcases ht with h | h
      · exact ⟨h.2.le, by rw [← h.2]; exact hd⟩
      · exact ⟨by rw [← h.2]; exact hd, h.2.ge⟩
    obtain ⟨e, h1, h2⟩ := mem_lineIds.1 (hF.ids_perm.mem_iff.2 this)
    obtain ⟨j, hj⟩ := List.mem_iff_getElem?.1 h1
    exact ⟨j, e, hj, h2⟩

/-- A segment on the line with an end at `(x, s.y)` has its entry at `x`. -/
theorem Finished.entry_at (hF : Finished E S0 M L s) (hE : E.Exact) {x : K} {e : Entry} {a : Nat} (he : e ∈ s.line) (hae : a ∈ e.ids)
    (ht : Touches E x s.y a) : E.atY e.seg s.y = x := by
  have hm := hF.mem_line he
  have hex := hE _ hm.1 hm.2
  have hid : a ∈ lineIds s.line := mem_lineIds.2 ⟨e, he, hae⟩
  have hma := (hF.mem a).1 (hF.ids_perm.mem_iff.1 hid)
  have hnh := hma.2.1
  unfold Env.isHorizontal at hnh
  rw [decide_eq_false_iff_not] at hnh
  unfold Entry.ids at hae
  have hseg : a = e.seg → E.atY e.seg s.y = x := by
    rintro rfl
    rcases ht with h | h
    · rw [← h.2, hex.1]; exact h.1
    · rw [← h.2, hex.2]; exact h.1
  rcases List.mem_cons.1 hae with h | h
  · exact hseg h
  · rw [Option.mem_toList] at h
    rcases hF.kind he with ⟨k1, k2, k3⟩ | ⟨k1, k2, k3, k4⟩ | ⟨o, k1, k2, k3, k4, k5, k6, k7, k8⟩ | ⟨k1, k2, k3, k4⟩
    · rw [h] at k3; simp at k3
    · rw [h] at k3; simp at k3
    · rw [h, Option.some.injEq] at k3
      subst k3
      have : E.endX a = x := by
        rcases ht with h' | h'
        · exact absurd k6 (by rw [h'.2]; exact lt_irrefl _)
        · exact h'.1
      rw [← this, k7, ← k4]; exact hex.1
    · rw [h] at k3; simp at k3

/-- A horizontal segment meets the entries at its ends. -/
theorem span_mem (hpp : E.PP) {y : K} (hcor : E.Corner y) (hO : OrdC E y (L.map Entry.seg)) {x : K} {a j : Nat} {e : Entry} (h1 : E.startX a ≤ x) (h2 : x ≤ E.endX a)
    (he : L[j]? = some e) (hx : E.atY e.seg y = x) : (horizontalSpan E y L a).1 ≤ j ∧ j < (horizontalSpan E y L a).2 := by
  have hj := (List.getElem?_eq_some_iff.1 he).1
  have heseg : (L.map Entry.seg)[j]? = some e.seg := by rw [List.getElem?_map, he]; rfl
  unfold horizontalSpan
  dsimp only
  generalize hst : E.pp (fun a' => decide (E.upper2 a' y ≤ E.startX a)) (L.map Entry.seg) = st
  have hle : st ≤ j := by
    by_contra hlt
    push Not at hlt
    have hlen : st ≤ (L.map Entry.seg).length := by rw [← hst]; exact hpp.le _ _
    rw [List.length_map] at hlen
    have hf : (L.map Entry.seg)[st - 1]? = some (L[st - 1]'(by omega)).seg := by
      rw [List.getElem?_map, List.getElem?_eq_getElem (by omega)]; rfl
    have := hpp.left (fun a' => decide (E.upper2 a' y ≤ E.startX a)) (L.map Entry.seg) (st - 1) _ (by rw [hst]; omega) hf
    rw [decide_eq_true_eq] at this
    have h3 := hO.upper hcor j (st - 1) _ _ (by omega) heseg hf
    rw [hx] at h3
    exact absurd (h3.trans_le this) (not_lt.2 h1)
  refine ⟨hle, ?_⟩
  have := le_takeWhile (fun e => decide (E.lower2 e.seg y ≤ E.endX a)) (L.drop st) (j - st + 1) (by rw [List.length_drop]; omega) (by
    intro k f hk hf
    rw [List.getElem?_drop] at hf
    rw [decide_eq_true_eq]
    have hf' : (L.map Entry.seg)[st + k]? = some f.seg := by rw [List.getElem?_map, hf]; rfl
    have := hO.lower hcor (st + k) j _ _ (by omega) hf' heseg
    rw [hx] at this
    exact this.trans h2)
  omega

theorem Finished.flat_between (hC : E.Contours single) {a : Nat} {x y : K} (ha : a ∈ E.segs) (hh : E.isHorizontal a = true) (ht : Touches E x y a) :
    E.startX a ≤ x ∧ x ≤ E.endX a := by
  have := hC.flat a ha hh
  rcases ht with h | h
  · exact ⟨h.1.le, by rw [← h.1]; exact this⟩
  · exact ⟨by rw [← h.1]; exact this, h.1.ge⟩

theorem hz_span_in (hF : Finished E S0 M L s) {c : CI} (hc : c ∈ s.chg) {a b k x : Nat} (h1 : c.hz = some (a, b)) (h2 : a ≤ k) (h3 : k < b)
    (h4 : s.horiz[k]? = some x) : c.start ≤ (horizontalSpan E s.y L x).1 ∧ (horizontalSpan E s.y L x).2 ≤ c.stop := by
  obtain ⟨d, hd, a', b', q1, q2, q3, q4, q5⟩ := hF.chg.hzSpan k x h4
  have := hF.chg.hz_unique hc hd h1 q1 h2 h3 q2 q3
  subst this
  exact ⟨q4, q5⟩

/-- Neighbours in a contour that meet at this height are in the same range. -/
theorem Finished.linked (hF : Finished E S0 M L s) (hs : E.Sched) (hE : E.Exact) (hpp : E.PP) (hC : E.Contours single)
    (hO : OrdC E s.y (s.line.map Entry.seg)) {c : CI} (hc : c ∈ s.chg) {x : K} {a a' : Nat} (ha : a ∈ E.segs) (hadj : Adj E x s.y a a')
    (hin : a ∈ rangeSegs s c) : a' ∈ rangeSegs s c := by
  obtain ⟨ha', hadj'⟩ := hadj.symm hC ha
  have ht := hadj.touches
  have ht' := hadj'.touches
  have hcor : E.Corner s.y := ⟨a, ha, ht.imp And.right And.right⟩
  have hOL : OrdC E s.y (L.map Entry.seg) := by rw [← hF.chg.same.segs]; exact hO
  unfold rangeSegs at hin ⊢
  rw [List.mem_append] at hin ⊢
  have toL : ∀ (j : Nat) (e : Entry), s.line[j]? = some e → ∃ f, L[j]? = some f ∧ f.seg = e.seg := by
    intro j e he
    obtain ⟨f, hf⟩ := hF.chg.same.get he
    exact ⟨f, hf, (hF.chg.same.core hf he).1.symm⟩
  rcases hF.mem_all hs ha' ht' with ⟨hh', hz'⟩ | ⟨hh', j', e', he', hae'⟩
  · right
    obtain ⟨k', hk'⟩ := List.mem_iff_getElem?.1 hz'
    have hb' := Finished.flat_between hC ha' hh' ht'
    rcases hin with hin | hin
    · obtain ⟨j, e, q1, q2, q3, q4⟩ := mem_lineIds_slice.1 hin
      obtain ⟨f, f1, f2⟩ := toL j e q3
      obtain ⟨d, hd, a1, b1, r1, r2, r3, r4, r5⟩ := hF.chg.hzSpan k' a' hk'
      have hat := hF.entry_at hE (List.mem_of_getElem? q3) q4 ht
      rw [← f2] at hat
      have := span_mem hpp hcor hOL hb'.1 hb'.2 f1 hat
      have := hF.chg.unique hc hd q1 q2 (by omega) (by omega)
      subst this
      exact mem_horizOf.2 ⟨a1, b1, k', r1, r2, r3, hk'⟩
    · obtain ⟨a1, b1, k, q1, q2, q3, q4⟩ := mem_horizOf.1 hin
      have hh := ((hF.horiz a).1 (List.mem_of_getElem? q4)).2.1
      have hb := Finished.flat_between hC ha hh ht
      rcases lt_trichotomy k k' with hlt | heq | hgt
      · obtain ⟨d, hd, a2, b2, r1, r2, r3⟩ := hF.chg.hzLink k k' a a' hlt q4 hk' (hb'.1.trans hb.2)
        have := hF.chg.hz_unique hc hd q1 r1 q2 q3 r2 (by omega)
        subst this
        exact mem_horizOf.2 ⟨a2, b2, k', r1, by omega, r3, hk'⟩
      · subst heq
        exact mem_horizOf.2 ⟨a1, b1, k, q1, q2, q3, hk'⟩
      · obtain ⟨d, hd, a2, b2, r1, r2, r3⟩ := hF.chg.hzLink k' k a' a hgt hk' q4 (hb.1.trans hb'.2)
        have := hF.chg.hz_unique hc hd q1 r1 q2 q3 (by omega) r3
        subst this
        exact mem_horizOf.2 ⟨a2, b2, k', r1, r2, by omega, hk'⟩
  · left
    have hat' := hF.entry_at hE (List.mem_of_getElem? he') hae' ht'
    obtain ⟨f', f1', f2'⟩ := toL j' e' he'
    rcases hin with hin | hin
    · obtain ⟨j, e, q1, q2, q3, q4⟩ := mem_lineIds_slice.1 hin
      have he := List.mem_of_getElem? q3
      have hm := hF.mem_line he
      have hat := hF.entry_at hE he q4 ht
      have hex := hE _ hm.1 hm.2
      have hnh := hm.2
      unfold Env.isHorizontal at hnh
      rw [decide_eq_false_iff_not] at hnh
      -- an entry that only holds `a`
      have single : e.oldSeg = none → (e.enter = true ∨ e.exit = true) → endPos E e = x → a' ∈ lineIds (slice s.line c) := by
        intro hn hfl hend
        by_cases hjj : j = j'
        · subst hjj
          exact mem_lineIds_slice.2 ⟨j, e', q1, q2, he', hae'⟩
        obtain ⟨f, f1, f2⟩ := toL j e q3
        obtain ⟨_, c2, c3, c4⟩ := hF.chg.same.core f1 q3
        have hj : j ∈ s.snp := hF.move.flags j f f1 (by rw [← c2, ← c3]; exact hfl)
        have hendf : endPos E f = x := by
          rw [← hend]
          unfold endPos
          rw [c2, f2]
        have hR : Reach E s.y L (endPos E f) j j' := by
          rw [hendf]
          have hsegj' : (L.map Entry.seg)[j']? = some f'.seg := by rw [List.getElem?_map, f1']; rfl
          rw [← f2'] at hat'
          rcases lt_or_gt_of_ne hjj with hlt | hlt
          · right
            refine ⟨hlt, (List.getElem?_eq_some_iff.1 f1').1, ?_⟩
            intro k g k1 k2 hg
            have hsegk : (L.map Entry.seg)[k]? = some g.seg := by rw [List.getElem?_map, hg]; rfl
            rw [← hat']
            exact hOL.lower hcor k j' _ _ k2 hsegk hsegj'
          · left
            refine ⟨hlt, ?_⟩
            intro k g k1 k2 hg
            have hsegk : (L.map Entry.seg)[k]? = some g.seg := by rw [List.getElem?_map, hg]; rfl
            rw [← hat']
            exact (hOL.upper hcor j' k _ _ k1 hsegj' hsegk).le
        obtain ⟨d, hd, d1, d2, d3, d4⟩ := hF.chg.reach j hj f f1 (by rw [← c4]; exact hn) (by rw [← c2, ← c3]; exact hfl) j' hR
        have := hF.chg.unique hc hd q1 q2 d1 d2
        subst this
        exact mem_lineIds_slice.2 ⟨j', e', d3, d4, he', hae'⟩
      rcases hF.kind he with ⟨k1, k2, k3⟩ | ⟨k1, k2, k3, k4⟩ | ⟨o, k1, k2, k3, k4, k5, k6, k7, k8⟩ | ⟨k1, k2, k3, k4⟩
      · exfalso
        have hseg : a = e.seg := by
          unfold Entry.ids at q4
          rw [k3] at q4
          simpa using q4
        subst hseg
        obtain ⟨e1, e2⟩ := hF.entry_seg he
        rcases ht with h | h
        · exact absurd (e1 k1) (by rw [h.2]; exact lt_irrefl _)
        · exact absurd (e2 (.inl k2)) (by rw [h.2]; exact lt_irrefl _)
      · apply single k3 (.inl k1)
        unfold endPos
        rw [if_pos k1, ← hex.1, k4]
        exact hat
      · have hmo : o ∈ E.segs := by
          have : o ∈ lineIds s.line := mem_lineIds.2 ⟨e, he, by simp [Entry.ids, k3]⟩
          exact ((hF.mem o).1 (hF.ids_perm.mem_iff.1 this)).1
        have := cont_partner hC hm.1 hmo hm.2 k4 k5 k6 (s := a) (s' := a') (by
          unfold Entry.ids at q4
          rw [k3] at q4
          simpa using q4) hadj
        refine mem_lineIds_slice.2 ⟨j, e, q1, q2, q3, ?_⟩
        unfold Entry.ids
        rw [k3]
        simpa using this
      · apply single k3 (.inr k2)
        unfold endPos
        rw [if_neg (by rw [k1]; simp), ← hex.2, k4]
        exact hat
    · obtain ⟨a1, b1, k, r1, r2, r3, r4⟩ := mem_horizOf.1 hin
      have hh := ((hF.horiz a).1 (List.mem_of_getElem? r4)).2.1
      have hb := Finished.flat_between hC ha hh ht
      have hin' := hz_span_in hF hc r1 r2 r3 r4
      rw [← f2'] at hat'
      have := span_mem hpp hcor hOL hb.1 hb.2 f1' hat'
      exact mem_lineIds_slice.2 ⟨j', e', by omega, by omega, he', hae'⟩

end

/-! ## The sums -/

theorem sum_toFinset (l : List Nat) (h : l.Nodup) (P : Nat → Bool) (f : Nat → W) :
    ((l.filter P).map f).sum = ∑ a ∈ l.toFinset.filter (fun a => P a = true), f a := by
  have : l.toFinset.filter (fun a => P a = true) = (l.filter P).toFinset := by
    ext a; simp
  rw [this, List.sum_toFinset _ (h.filter _)]

/-- In a set of segments closed under neighbours at `(x, y)`, what starts at the point and what ends there balance. -/
theorem balance_finset (hC : E.Contours single) (S : Finset Nat) (hS : ∀ a ∈ S, a ∈ E.segs) (x y : K)
    (hcl : ∀ a ∈ S, ∀ a', Adj E x y a a' → a' ∈ S) :
    ∑ a ∈ S.filter (fun a => E.startX a = x ∧ E.startY a = y), single a (E.orient a) =
      ∑ a ∈ S.filter (fun a => E.endX a = x ∧ E.endY a = y), single a (E.orient a) := by
  have key : ∑ a ∈ S.filter (fun a => E.oEnd a = (x, y)), single a true = ∑ a ∈ S.filter (fun a => E.oStart a = (x, y)), single a true := by
    refine Finset.sum_nbij' (fun a => (E.contourNext a).getD 0) (fun a => (E.contourPrev a).getD 0) ?_ ?_ ?_ ?_ ?_
    · intro a ha
      rw [Finset.mem_filter] at ha ⊢
      obtain ⟨t, t1, t2, t3, t4, t5⟩ := hC.next a (hS a ha.1)
      rw [t2]
      exact ⟨hcl a ha.1 t (.inl ⟨t2, ha.2⟩), by rw [Option.getD_some, ← t4, ha.2]⟩
    · intro a ha
      rw [Finset.mem_filter] at ha ⊢
      obtain ⟨t, t1, t2, t3⟩ := hC.prev a (hS a ha.1)
      obtain ⟨u, u1, u2, u3, u4, u5⟩ := hC.next t t1
      rw [t3, Option.some.injEq] at u2
      subst u2
      rw [t2]
      exact ⟨hcl a ha.1 t (.inr ⟨t2, ha.2⟩), by rw [Option.getD_some, u4, ha.2]⟩
    · intro a ha
      rw [Finset.mem_filter] at ha
      obtain ⟨t, t1, t2, t3, t4, t5⟩ := hC.next a (hS a ha.1)
      rw [t2, Option.getD_some, t3]; rfl
    · intro a ha
      rw [Finset.mem_filter] at ha
      obtain ⟨t, t1, t2, t3⟩ := hC.prev a (hS a ha.1)
      rw [t2, Option.getD_some, t3]; rfl
    · intro a ha
      rw [Finset.mem_filter] at ha
      obtain ⟨t, t1, t2, t3, t4, t5⟩ := hC.next a (hS a ha.1)
      rw [t2, Option.getD_some, t5]
  rw [Finset.sum_filter, Finset.sum_filter] at key ⊢
  rw [← sub_eq_zero, ← Finset.sum_sub_distrib] at key ⊢
  rw [← neg_eq_zero, ← Finset.sum_neg_distrib] at key
  refine Eq.trans ?_ key
  apply Finset.sum_congr rfl
  intro a ha
  have hn := hC.neg a (hS a ha)
  unfold Env.oStart Env.oEnd
  by_cases hor : E.orient a = true
  · simp only [hor, if_true, Prod.mk.injEq]
    abel
  · rw [Bool.not_eq_true] at hor
    simp only [hor, Bool.false_eq_true, if_false, Prod.mk.injEq, hn]
    split_ifs <;> abel

/-- The events of a range balance. -/
theorem Tagged.balance {S0 : List Nat} {M L : List Entry} {s : State K} {c : CI} {evs : List (OutputEvent K)} {T To : List (Tag K)}
    (hF : Finished E S0 M L s) (hs : E.Sched) (hE : E.Exact) (hpp : E.PP) (hC : E.Contours single) (hO : OrdC E s.y (s.line.map Entry.seg))
    (hc : c ∈ s.chg) (h : Tagged E s M c evs T To) (x : K) :
    ((evs.filter fun e => !e.connectedAbove && decide (e.x0 = x)).map (contribOf single E.orient)).sum =
      ((evs.filter fun e => !e.connectedBelow && decide (e.x1 = x)).map (contribOf single E.orient)).sum := by
  have hev := h.evOk hF
  have h1 : (evs.filter fun e => !e.connectedAbove && decide (e.x0 = x)) =
      evs.filter ((fun a => decide (E.startX a = x ∧ E.startY a = s.y)) ∘ OutputEvent.segIdx) := by
    apply List.filter_congr
    intro e he
    have hk := hev e he
    rw [Bool.eq_iff_iff]
    simp only [Bool.and_eq_true, Bool.not_eq_true', decide_eq_true_eq, Function.comp_apply]
    constructor
    · rintro ⟨q1, q2⟩
      have := hk.starts q1
      exact ⟨by rw [← this.2]; exact q2, this.1⟩
    · rintro ⟨q1, q2⟩
      have hab : e.connectedAbove = false := by
        by_contra hh
        rw [Bool.not_eq_false] at hh
        have := hk.above hh
        rw [q2] at this
        exact lt_irrefl _ this
      exact ⟨hab, by rw [(hk.starts hab).2]; exact q1⟩
  have h2 : (evs.filter fun e => !e.connectedBelow && decide (e.x1 = x)) =
      evs.filter ((fun a => decide (E.endX a = x ∧ E.endY a = s.y)) ∘ OutputEvent.segIdx) := by
    apply List.filter_congr
    intro e he
    have hk := hev e he
    rw [Bool.eq_iff_iff]
    simp only [Bool.and_eq_true, Bool.not_eq_true', decide_eq_true_eq, Function.comp_apply]
    constructor
    · rintro ⟨q1, q2⟩
      have := hk.stops q1
      exact ⟨by rw [← this.2]; exact q2, this.1⟩
    · rintro ⟨q1, q2⟩
      have hab : e.connectedBelow = false := by
        by_contra hh
        rw [Bool.not_eq_false] at hh
        have := hk.below hh
        rw [q2] at this
        exact lt_irrefl _ this
      exact ⟨hab, by rw [(hk.stops hab).2]; exact q1⟩
  have h3 : ∀ P : Nat → Bool, (evs.filter (P ∘ OutputEvent.segIdx)).map (contribOf single E.orient) =
      ((evs.map OutputEvent.segIdx).filter P).map fun a => single a (E.orient a) := by
    intro P
    rw [List.filter_map, List.map_map]
    rfl
  have hnd : (evs.map OutputEvent.segIdx).Nodup := (h.seg_perm hF).nodup_iff.2 (hF.range_nodup c)
  have hset : ∀ a, a ∈ (evs.map OutputEvent.segIdx).toFinset ↔ a ∈ rangeSegs s c := by
    intro a
    rw [List.mem_toFinset]
    exact (h.seg_perm hF).mem_iff
  have hsegs : ∀ a ∈ (evs.map OutputEvent.segIdx).toFinset, a ∈ E.segs := by
    intro a ha
    rw [List.mem_toFinset] at ha
    obtain ⟨e, he, rfl⟩ := List.mem_map.1 ha
    exact (hev e he).mem
  rw [h1, h2, h3, h3, sum_toFinset _ hnd, sum_toFinset _ hnd]
  simp only [decide_eq_true_eq]
  apply balance_finset hC _ hsegs
  intro a ha a' hadj
  rw [hset] at ha ⊢
  exact hF.linked hs hE hpp hC hO hc (hsegs a (by rw [hset]; exact ha)) hadj ha

end Verif.Sweep
