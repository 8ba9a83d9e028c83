import Verif.Merge.Pair

/-! The horizontal segments that start at one point. -/

namespace Verif.Merge
open Verif.Topo
set_option linter.unusedSectionVars false

variable {K : Type} [LinearOrder K] {W : Type} [AddCommGroup W] [DecidableEq W]

theorem mergeOne_into (close : Nat → Nat → K → K → Bool) (t : Topo K W) (k c : Nat) (hd : t.deleted k = false)
    (hn : (t.nb ⟨k, true⟩).cw = ⟨c, true⟩) (he : t.pointIdx ⟨k, false⟩ = t.pointIdx ⟨c, false⟩) (x y : K × K)
    (hx : pointOf t ⟨k, true⟩ = some x) (hy : pointOf t ⟨k, false⟩ = some y)
    (h : x.2 = y.2 ∨ (t.scanWest k = some c ∧ close (t.origSeg k) (t.origSeg c) x.2 y.2 = true)) :
    mergeOne close t k = some (mergeInto t k c) := by
  unfold mergeOne
  rw [if_neg (by simp [hd])]
  simp only [hn, Half.other, Bool.not_true, hx, hy, if_pos he, if_true]
  rcases h with h | ⟨h1, h2⟩
  · rw [if_neg (by simp [h]), if_neg (by simp [h])]
  · rw [if_neg (by simp [h1]), if_neg (by simp [h2])]

theorem mergeOne_skip (close : Nat → Nat → K → K → Bool) (t : Topo K W) (k : Nat)
    (he : t.pointIdx ⟨k, false⟩ ≠ t.pointIdx (t.nb ⟨k, true⟩).cw.other) : mergeOne close t k = some t := by
  unfold mergeOne
  split
  · rfl
  · simp only [if_neg he]

theorem mergeOne_deleted (close : Nat → Nat → K → K → Bool) (t : Topo K W) (k : Nat) (hd : t.deleted k = true) :
    mergeOne close t k = some t := by
  unfold mergeOne; rw [if_pos hd]

theorem mergeLoop_append (close : Nat → Nat → K → K → Bool) (l1 l2 : List Nat) (t : Topo K W) :
    mergeLoop close (l1 ++ l2) t = (mergeLoop close l1 t).bind (mergeLoop close l2) := by
  induction l1 generalizing t with
  | nil => rfl
  | cons i l1 ih =>
    rw [List.cons_append]
    simp only [mergeLoop]
    cases mergeOne close t i with
    | none => rfl
    | some t' => exact ih t'

theorem range'_split3 (a g k e : Nat) (h1 : a ≤ k) (h2 : k ≤ e) (h3 : e ≤ a + g) :
    List.range' a g = List.range' a (k - a) ++ (List.range' k (e - k) ++ List.range' e (a + g - e)) := by
  have e1 : List.range' k (e - k) ++ List.range' e (a + g - e) = List.range' k (a + g - k) := by
    have := List.range'_append (s := k) (m := e - k) (n := a + g - e) (step := 1)
    rw [show k + 1 * (e - k) = e by omega, show e - k + (a + g - e) = a + g - k by omega] at this
    exact this
  rw [e1]
  have := List.range'_append (s := a) (m := k - a) (n := a + g - k) (step := 1)
  rw [show a + 1 * (k - a) = k by omega, show k - a + (a + g - k) = g by omega] at this
  exact this.symm

theorem filter_nil_of {l : List Nat} {P : Nat → Bool} (h : ∀ i ∈ l, P i = false) : l.filter P = [] := by
  rw [List.filter_eq_nil_iff]; intro i hi; simp [h i hi]
theorem filter_id_of {l : List Nat} {P : Nat → Bool} (h : ∀ i ∈ l, P i = true) : l.filter P = l := by
  rw [List.filter_eq_self]; exact h

/-- Keeping an interval. -/
theorem filter_interval (a g k e : Nat) (P : Nat → Bool) (h1 : a ≤ k) (h2 : k ≤ e) (h3 : e ≤ a + g)
    (hP : ∀ i, a ≤ i → i < a + g → (P i = true ↔ k ≤ i ∧ i < e)) : (List.range' a g).filter P = List.range' k (e - k) := by
  rw [range'_split3 a g k e h1 h2 h3, List.filter_append, List.filter_append, filter_nil_of, filter_id_of, filter_nil_of]
  · simp
  · intro i hi
    rw [List.mem_range'_1] at hi
    have := hP i (by omega) (by omega)
    cases hPi : P i with
    | false => rfl
    | true => have := this.1 hPi; omega
  · intro i hi
    rw [List.mem_range'_1] at hi
    exact (hP i (by omega) (by omega)).2 (by omega)
  · intro i hi
    rw [List.mem_range'_1] at hi
    have := hP i (by omega) (by omega)
    cases hPi : P i with
    | false => rfl
    | true => have := this.1 hPi; omega

/-- Keeping one element and a tail. -/
theorem filter_base (a g k f : Nat) (P : Nat → Bool) (h1 : a ≤ f) (h2 : f < k) (h3 : k ≤ a + g)
    (hP : ∀ i, a ≤ i → i < a + g → (P i = true ↔ k ≤ i ∨ i = f)) :
    (List.range' a g).filter P = f :: List.range' k (a + g - k) := by
  rw [range'_split3 a g k (a + g) (by omega) h3 (le_refl _), List.filter_append, List.filter_append]
  have e1 : (List.range' a (k - a)).filter P = [f] := by
    have := filter_interval a (k - a) f (f + 1) P h1 (by omega) (by omega) (by
      intro i h4 h5
      rw [hP i h4 (by omega)]; omega)
    rw [this]; simp
  rw [e1, filter_id_of, filter_nil_of]
  · simp
  · intro i hi; rw [List.mem_range'_1] at hi; omega
  · intro i hi
    rw [List.mem_range'_1] at hi
    exact (hP i (by omega) (by omega)).2 (by omega)

theorem filter_firsts (t : Topo K W) (l : List Nat) :
    (firsts l).filter (live t) = firsts (l.filter fun i => !t.deleted i) := by
  unfold firsts; rw [List.filter_map]; rfl
theorem filter_seconds (t : Topo K W) (l : List Nat) :
    (seconds l).filter (live t) = seconds (l.filter fun i => !t.deleted i) := by
  unfold seconds; rw [List.filter_map]; rfl

/-- The winding west of `k` in the bundle starting with `a`. -/
def Rk (w : Nat → HW W) (a k : Nat) : W := if k = a then (w a).cw else (w (k - 1)).ccw

/-- What is known about the bundle `a, ..., a + g - 1` between the points `p` and `p + 1`. `D` are the other half-segments
at `p`; around `p + 1` there are `X`, the bundle, and `Y`. -/
structure Bdl (s0 : Topo K W) (L : Nat → List Half) (p a g : Nat) (D X Y : List Half) : Prop where
  geo : Geo s0 L
  lp : L p = (firsts (List.range' a g)).reverse ++ D
  lq : L (p + 1) = X ++ (seconds (List.range' a g) ++ Y)
  hp : p + 1 < s0.points.length
  notD : ∀ h ∈ D, ¬ (a ≤ h.idx ∧ h.idx < a + g)
  notX : ∀ h ∈ X, ¬ (a ≤ h.idx ∧ h.idx < a + g)
  notY : ∀ h ∈ Y, ¬ (a ≤ h.idx ∧ h.idx < a + g)
  first : ∀ i, a ≤ i → i < a + g → s0.pointIdx ⟨i, true⟩ = some p
  second : ∀ i, a ≤ i → i < a + g → s0.pointIdx ⟨i, false⟩ = some (p + 1)
  flat : ∀ u v, s0.points[p]? = some u → s0.points[p + 1]? = some v → u.2 = v.2
  apart : ∀ h ∈ D, s0.pointIdx h.other ≠ some (p + 1)

section
variable {s0 : Topo K W} {L : Nat → List Half} {p a g : Nat} {D X Y : List Half}

/-- Deletions so far only concern the bundle. -/
def Out (s0 t : Topo K W) (a g : Nat) : Prop :=
  ∀ i, ¬ (a ≤ i ∧ i < a + g) → t.deleted i = s0.deleted i ∧ t.winding i = s0.winding i

theorem Out.filter {t : Topo K W} (ho : Out s0 t a g) (l : List Half) (hl : ∀ h ∈ l, ¬ (a ≤ h.idx ∧ h.idx < a + g)) :
    l.filter (live t) = l.filter (live s0) := by
  apply List.filter_congr
  intro h hm
  unfold live
  rw [(ho h.idx (hl h hm)).1]

theorem Bdl.filterP (H : Bdl s0 L p a g D X Y) {t : Topo K W} (ho : Out s0 t a g) :
    (L p).filter (live t) = (firsts ((List.range' a g).filter fun i => !t.deleted i)).reverse ++ D.filter (live s0) := by
  rw [H.lp, List.filter_append, List.filter_reverse, filter_firsts, ho.filter D H.notD]

theorem Bdl.filterQ (H : Bdl s0 L p a g D X Y) {t : Topo K W} (ho : Out s0 t a g) :
    (L (p + 1)).filter (live t) =
      X.filter (live s0) ++ (seconds ((List.range' a g).filter fun i => !t.deleted i) ++ Y.filter (live s0)) := by
  rw [H.lq, List.filter_append, List.filter_append, filter_seconds, ho.filter X H.notX, ho.filter Y H.notY]

theorem Bdl.pt (H : Bdl s0 L p a g D X Y) {t : Topo K W} (hs : Same s0 t) (i : Nat) (h1 : a ≤ i) (h2 : i < a + g) :
    ∃ u v, pointOf t ⟨i, true⟩ = some u ∧ pointOf t ⟨i, false⟩ = some v ∧ u.2 = v.2 := by
  have hp := H.hp
  refine ⟨s0.points[p]'(by omega), s0.points[p + 1]'(by omega), ?_, ?_, ?_⟩
  · unfold pointOf; rw [hs.pointIdx, hs.points, H.first i h1 h2]
    simp only [Option.bind_some]; exact List.getElem?_eq_getElem _
  · unfold pointOf; rw [hs.pointIdx, hs.points, H.second i h1 h2]
    simp only [Option.bind_some]; exact List.getElem?_eq_getElem _
  · exact H.flat _ _ (List.getElem?_eq_getElem _) (List.getElem?_eq_getElem _)

theorem Bdl.other (H : Bdl s0 L p a g D X Y) (r : Nat) (hr : r < s0.points.length) (h1 : r ≠ p) (h2 : r ≠ p + 1) :
    ∀ h ∈ L r, ¬ (a ≤ h.idx ∧ h.idx < a + g) := by
  rintro ⟨i, b⟩ hm ⟨h3, h4⟩
  rw [H.geo.mem r hr] at hm
  cases b
  · rw [H.second i h3 h4] at hm; exact h2 (by simpa using hm.symm)
  · rw [H.first i h3 h4] at hm; exact h1 (by simpa using hm.symm)

/-- Windings in the bundle follow each other. -/
theorem Bdl.chain (H : Bdl s0 L p a g D X Y) (hR : Rings s0 L) (hF : Fit s0 L)
    (hl : ∀ i, a ≤ i → i < a + g → s0.deleted i = false) (k : Nat) (h1 : a ≤ k) (h2 : k < a + g) :
    (s0.winding k).cw = Rk s0.winding a k := by
  unfold Rk
  by_cases hk : k = a
  · rw [if_pos hk, hk]
  · rw [if_neg hk]
    have ho : Out s0 s0 a g := fun i _ => ⟨rfl, rfl⟩
    have hf := H.filterQ ho
    rw [filter_id_of (by intro i hi; rw [List.mem_range'_1] at hi; simp [hl i hi.1 hi.2])] at hf
    rw [range'_split3 a g (k - 1) (k + 1) (by omega) (by omega) (by omega)] at hf
    have e : List.range' (k - 1) (k + 1 - (k - 1)) = [k - 1, k] := by
      have : k + 1 - (k - 1) = 2 := by omega
      rw [this]
      have : k - 1 + 1 = k := by omega
      simp [List.range', this]
    rw [e] at hf
    have hring := hR (p + 1) H.hp
    have hfit := hF (p + 1) H.hp
    rw [hf] at hring hfit
    have hlist : X.filter (live s0) ++ (seconds (List.range' a (k - 1 - a) ++ ([k - 1, k] ++
        List.range' (k + 1) (a + g - (k + 1)))) ++ Y.filter (live s0)) =
        (X.filter (live s0) ++ seconds (List.range' a (k - 1 - a))) ++ ⟨k - 1, false⟩ :: ⟨k, false⟩ ::
          (seconds (List.range' (k + 1) (a + g - (k + 1))) ++ Y.filter (live s0)) := by
      simp [seconds]
    rw [hlist] at hring hfit
    have hlink := ring_infix hring
    have := hfit ⟨k - 1, false⟩ (by simp)
    rw [hlink.1] at this
    simpa [Topo.windingCw, Topo.windingCcw] using this.symm

/-- The state when the bundle up to `k` has been handled and something else is attached to `p`. -/
structure NW (s0 t : Topo K W) (L : Nat → List Half) (a g k : Nat) : Prop where
  same : Same s0 t
  rings : Rings t L
  fit : Fit t L
  out : Out s0 t a g
  rest : ∀ i, k ≤ i → i < a + g → t.deleted i = false ∧ t.winding i = s0.winding i
  base : ((∀ i, a ≤ i → i < k → t.deleted i = true) ∧ Rk s0.winding a k = (s0.winding a).cw) ∨
    ∃ f, a ≤ f ∧ f < k ∧ (∀ i, a ≤ i → i < k → (t.deleted i = false ↔ i = f)) ∧
      t.winding f = ⟨(s0.winding a).cw, Rk s0.winding a k⟩ ∧
      ((∀ i, a ≤ i → i < a + g → (s0.winding i).cw ≠ (s0.winding i).ccw) → (s0.winding a).cw ≠ Rk s0.winding a k)

theorem NW.step (close : Nat → Nat → K → K → Bool) (H : Bdl s0 L p a g D X Y) (hR : Rings s0 L) (hF : Fit s0 L)
    (hl : ∀ i, a ≤ i → i < a + g → s0.deleted i = false) (hD : D.filter (live s0) ≠ [])
    {t : Topo K W} {k : Nat} (h1 : a ≤ k) (h2 : k < a + g) (N : NW s0 t L a g k) :
    ∃ t', mergeOne close t k = some t' ∧ NW s0 t' L a g (k + 1) := by
  have G := H.geo.same N.same
  have hk := N.rest k (le_refl _) h2
  have hRk : Rk s0.winding a (k + 1) = (s0.winding k).ccw := by
    unfold Rk; rw [if_neg (by omega)]; rfl
  have hcw := H.chain hR hF hl k h1 h2
  have hkn : k < t.n := by
    have := (H.geo.lt _ _ (H.first k h1 h2)).2
    rw [N.same.n]; exact this
  have hp := H.hp
  have ringP := N.rings p (by rw [N.same.points]; omega)
  have ringQ := N.rings (p + 1) (by rw [N.same.points]; omega)
  rw [H.filterP N.out] at ringP
  rw [H.filterQ N.out] at ringQ
  have hsecond := H.second k h1 h2
  rcases N.base with ⟨hall, hbase⟩ | ⟨f, hf1, hf2, hf3, hf4, hf5⟩
  · -- nothing is left of the earlier ones
    have hfl : (List.range' a g).filter (fun i => !t.deleted i) = List.range' k (a + g - k) := by
      apply filter_interval a g k (a + g) _ h1 (by omega) (le_refl _)
      intro i h3 h4
      by_cases hik : i < k
      · simp [hall i h3 hik]; omega
      · have := (N.rest i (by omega) h4).1
        simp [this]; omega
    obtain ⟨d, D', hD'⟩ := List.exists_cons_of_ne_nil hD
    rw [hfl, hD'] at ringP
    have e : List.range' k (a + g - k) = k :: List.range' (k + 1) (a + g - k - 1) := by
      have : a + g - k = (a + g - k - 1) + 1 := by omega
      rw [this, List.range'_succ]; simp
    rw [e] at ringP
    have hlist : (firsts (k :: List.range' (k + 1) (a + g - k - 1))).reverse ++ d :: D' =
        (firsts (List.range' (k + 1) (a + g - k - 1))).reverse ++ ⟨k, true⟩ :: d :: D' := by
      simp [firsts]
    rw [hlist] at ringP
    have hlink := ring_infix ringP
    have hd : d ∈ D := by
      have : d ∈ D.filter (live s0) := by rw [hD']; simp
      exact List.mem_of_mem_filter this
    refine ⟨t, mergeOne_skip close t k ?_, ?_⟩
    · rw [hlink.1, N.same.pointIdx, hsecond]
      exact (H.apart d hd).symm
    · refine ⟨N.same, N.rings, N.fit, N.out, fun i h3 h4 => N.rest i (by omega) h4, .inr ⟨k, h1, by omega, ?_, ?_, ?_⟩⟩
      · intro i h3 h4
        by_cases hik : i < k
        · simp [hall i h3 hik]; omega
        · have : i = k := by omega
          rw [this]; simp [hk.1]
      · rw [hk.2, hRk, ← hbase, ← hcw]
      · intro hnt
        rw [hRk, ← hbase, ← hcw]; exact hnt k h1 h2
  · have hfl : (List.range' a g).filter (fun i => !t.deleted i) = f :: List.range' k (a + g - k) := by
      apply filter_base a g k f _ hf1 hf2 (by omega)
      intro i h3 h4
      by_cases hik : i < k
      · have := hf3 i h3 hik
        cases hdi : t.deleted i <;> simp [hdi] at this ⊢ <;> omega
      · have := (N.rest i (by omega) h4).1
        simp [this]; omega
    rw [hfl] at ringP ringQ
    have e : List.range' k (a + g - k) = k :: List.range' (k + 1) (a + g - k - 1) := by
      have : a + g - k = (a + g - k - 1) + 1 := by omega
      rw [this, List.range'_succ]; simp
    rw [e] at ringP ringQ
    have hlistP : (firsts (f :: k :: List.range' (k + 1) (a + g - k - 1))).reverse ++ D.filter (live s0) =
        (firsts (List.range' (k + 1) (a + g - k - 1))).reverse ++ ⟨k, true⟩ :: ⟨f, true⟩ :: D.filter (live s0) := by
      simp [firsts]
    have hlistQ : X.filter (live s0) ++ (seconds (f :: k :: List.range' (k + 1) (a + g - k - 1)) ++ Y.filter (live s0)) =
        X.filter (live s0) ++ ⟨f, false⟩ :: ⟨k, false⟩ :: (seconds (List.range' (k + 1) (a + g - k - 1)) ++ Y.filter (live s0)) := by
      simp [seconds]
    rw [hlistP] at ringP
    rw [hlistQ] at ringQ
    have linkP := ring_infix ringP
    have linkQ := ring_infix ringQ
    obtain ⟨u, v, hu, hv, huv⟩ := H.pt N.same k h1 h2
    have hfd : t.deleted f = false := (hf3 f hf1 hf2).2 rfl
    have hfn : f < t.n := by
      have := (H.geo.lt _ _ (H.first f hf1 (by omega))).2
      rw [N.same.n]; exact this
    refine ⟨mergeInto t k f, mergeOne_into close t k f hk.1 linkP.1 ?_ u v hu hv (.inl huv), ?_⟩
    · rw [N.same.pointIdx, hsecond, H.second f hf1 (by omega)]
    have hdel := mergeInto_deleted t k f
    have hwnd := mergeInto_winding t k f
    rw [hf4, hk.2] at hdel hwnd
    simp only at hdel hwnd
    refine ⟨N.same.trans (same_mergeInto t k f), mergeInto_rings G N.rings k f hkn hfn hk.1 hfd,
      mergeInto_fit G N.rings N.fit k f hkn hfn (by omega) hk.1 hfd linkP.1 linkQ.1, ?_, ?_, ?_⟩
    · intro i hi
      have h3 : i ≠ k := by rintro rfl; exact hi ⟨h1, h2⟩
      have h4 : i ≠ f := by rintro rfl; exact hi ⟨hf1, by omega⟩
      rw [hdel, hwnd]; simp [h3, h4]; exact N.out i hi
    · intro i h3 h4
      have h5 : i ≠ k := by omega
      have h6 : i ≠ f := by omega
      rw [hdel, hwnd]; simp [h5, h6]; exact N.rest i (by omega) h4
    · rw [hRk]
      by_cases htriv : (s0.winding a).cw = (s0.winding k).ccw
      · left
        refine ⟨?_, htriv.symm⟩
        intro i h3 h4
        rw [hdel]
        by_cases h5 : i = k
        · simp [h5]
        · by_cases h6 : i = f
          · simp [h6, htriv]
          · have := hf3 i h3 (by omega)
            have hd : t.deleted i = true := by
              cases hdi : t.deleted i with
              | true => rfl
              | false => exact absurd (this.1 hdi) h6
            simp [h5, h6, hd]
      · right
        refine ⟨f, hf1, by omega, ?_, ?_, fun _ => htriv⟩
        · intro i h3 h4
          rw [hdel]
          by_cases h5 : i = k
          · simp [h5]; omega
          · by_cases h6 : i = f
            · simp [h6, htriv, hfd]; omega
            · have := hf3 i h3 (by omega)
              simp [h5, h6, htriv]
              cases hdi : t.deleted i with
              | true => rfl
              | false => exact absurd (this.1 hdi) h6
        · rw [hwnd]; simp

/-- The state when the bundle up to `k` has been handled and nothing else is attached to `p`. -/
structure WR (s0 t : Topo K W) (L : Nat → List Half) (a g k : Nat) : Prop where
  same : Same s0 t
  rings : Rings t L
  out : Out s0 t a g
  alive : ∃ e, a ≤ e ∧ e ≤ a + g ∧ (∀ i, a ≤ i → i < a + g → (t.deleted i = false ↔ k ≤ i ∧ i < e)) ∧
    (∀ i, k ≤ i → i < e → (t.winding i).cw = (s0.winding i).cw) ∧
    (∀ i, k ≤ i → i + 1 < e → (t.winding i).ccw = (s0.winding i).ccw) ∧
    (k < e → (t.winding (e - 1)).ccw = Rk s0.winding a k)

theorem WR.step (close : Nat → Nat → K → K → Bool) (H : Bdl s0 L p a g D X Y) (hR : Rings s0 L) (hF : Fit s0 L)
    (hl : ∀ i, a ≤ i → i < a + g → s0.deleted i = false) (hD : D.filter (live s0) = [])
    {t : Topo K W} {k : Nat} (h1 : a ≤ k) (h2 : k < a + g) (N : WR s0 t L a g k) :
    ∃ t', mergeOne close t k = some t' ∧ WR s0 t' L a g (k + 1) := by
  have G := H.geo.same N.same
  obtain ⟨e, he1, he2, halive, hcw, hccw, htop⟩ := N.alive
  have hRk : Rk s0.winding a (k + 1) = (s0.winding k).ccw := by
    unfold Rk; rw [if_neg (by omega)]; rfl
  have inb : ∀ i, a ≤ i → i < a + g → i < t.n := by
    intro i h3 h4
    have := (H.geo.lt _ _ (H.first i h3 h4)).2
    rw [N.same.n]; exact this
  by_cases hke : k < e
  swap
  · -- already deleted
    have hkd : t.deleted k = true := by
      cases hdk : t.deleted k with
      | true => rfl
      | false => have := (halive k h1 h2).1 hdk; omega
    refine ⟨t, mergeOne_deleted close t k hkd, N.same, N.rings, N.out, e, he1, he2, ?_, ?_, ?_, ?_⟩
    · intro i h3 h4; rw [halive i h3 h4]; omega
    · intro i h3 h4; omega
    · intro i h3 h4; omega
    · intro h3; omega
  · have hkd : t.deleted k = false := (halive k h1 h2).2 ⟨le_refl _, hke⟩
    have hp := H.hp
    have ringP := N.rings p (by rw [N.same.points]; omega)
    have hfl : (List.range' a g).filter (fun i => !t.deleted i) = List.range' k (e - k) := by
      apply filter_interval a g k e _ h1 (by omega) he2
      intro i h3 h4
      rw [← halive i h3 h4]; simp
    rw [H.filterP N.out, hfl, hD, List.append_nil] at ringP
    -- the neighbour is the last one
    have hnb : (t.nb ⟨k, true⟩).cw = ⟨e - 1, true⟩ := by
      have e1 : List.range' k (e - k) = k :: List.range' (k + 1) (e - k - 1) := by
        have : e - k = (e - k - 1) + 1 := by omega
        rw [this, List.range'_succ]; simp
      have hlist : (firsts (List.range' k (e - k))).reverse =
          (firsts (List.range' (k + 1) (e - k - 1))).reverse ++ [⟨k, true⟩] := by
        rw [e1]; simp [firsts]
      have hhead : ((firsts (List.range' k (e - k))).reverse).head? = some ⟨e - 1, true⟩ := by
        rw [List.head?_reverse]
        have : firsts (List.range' k (e - k)) = firsts (List.range' k (e - k - 1)) ++ [⟨e - 1, true⟩] := by
          have h3 := List.range'_append (s := k) (m := e - k - 1) (n := 1) (step := 1)
          rw [show k + 1 * (e - k - 1) = e - 1 by omega, show e - k - 1 + 1 = e - k by omega] at h3
          rw [← h3]; simp [firsts]
        rw [this]; simp
      rw [hlist] at ringP hhead
      exact (ring_wrap ringP hhead).1
    have hcd : t.deleted (e - 1) = false := (halive (e - 1) (by omega) (by omega)).2 (by omega)
    obtain ⟨u, v, hu, hv, huv⟩ := H.pt N.same k h1 h2
    refine ⟨mergeInto t k (e - 1), mergeOne_into close t k (e - 1) hkd hnb ?_ u v hu hv (.inl huv), ?_⟩
    · rw [N.same.pointIdx, H.second k h1 h2, H.second (e - 1) (by omega) (by omega)]
    have hdel := mergeInto_deleted t k (e - 1)
    have hwnd := mergeInto_winding t k (e - 1)
    refine ⟨N.same.trans (same_mergeInto t k (e - 1)),
      mergeInto_rings G N.rings k (e - 1) (inb k h1 h2) (inb (e - 1) (by omega) (by omega)) hkd hcd, ?_, ?_⟩
    · intro i hi
      have h3 : i ≠ k := by rintro rfl; exact hi ⟨h1, h2⟩
      have h4 : i ≠ e - 1 := by rintro rfl; exact hi ⟨by omega, by omega⟩
      rw [hdel, hwnd]; simp [h3, h4]; exact N.out i hi
    · have hchain := H.chain hR hF hl
      by_cases hself : k + 1 = e
      · -- the only one left
        refine ⟨e, he1, he2, ?_, ?_, ?_, ?_⟩
        · intro i h3 h4
          rw [hdel]
          by_cases h5 : i = k
          · simp [h5]
          · have h6 : i ≠ e - 1 := by omega
            simp only [h5, h6, if_false, false_and]
            rw [halive i h3 h4]; omega
        · intro i h3 h4; omega
        · intro i h3 h4; omega
        · intro h3; omega
      · have hkccw : (t.winding k).ccw = (s0.winding k).ccw := hccw k (le_refl _) (by omega)
        have htcw : (t.winding (e - 1)).cw = (s0.winding (e - 1)).cw := hcw (e - 1) (by omega) (by omega)
        rw [hkccw, htcw] at hdel hwnd
        by_cases htriv : (s0.winding (e - 1)).cw = (s0.winding k).ccw
        · refine ⟨e - 1, by omega, by omega, ?_, ?_, ?_, ?_⟩
          · intro i h3 h4
            rw [hdel]
            by_cases h5 : i = k
            · simp [h5]
            · by_cases h6 : i = e - 1
              · simp [h6, htriv]
              · simp only [h5, h6, if_false, false_and]
                rw [halive i h3 h4]; omega
          · intro i h3 h4
            rw [hwnd, if_neg (by omega)]
            exact hcw i (by omega) (by omega)
          · intro i h3 h4
            rw [hwnd, if_neg (by omega)]
            exact hccw i (by omega) (by omega)
          · intro h3
            rw [hwnd, if_neg (by omega), hRk, hccw (e - 1 - 1) (by omega) (by omega), ← htriv,
              hchain (e - 1) (by omega) (by omega)]
            unfold Rk; rw [if_neg (by omega)]
        · refine ⟨e, he1, he2, ?_, ?_, ?_, ?_⟩
          · intro i h3 h4
            rw [hdel]
            by_cases h5 : i = k
            · simp [h5]
            · simp only [h5, htriv, if_false, and_false]
              rw [halive i h3 h4]; omega
          · intro i h3 h4
            rw [hwnd]
            by_cases h6 : i = e - 1
            · rw [if_pos h6, h6]
            · rw [if_neg h6]; exact hcw i (by omega) (by omega)
          · intro i h3 h4
            rw [hwnd, if_neg (by omega)]
            exact hccw i (by omega) (by omega)
          · intro _
            rw [hwnd, if_pos rfl, hRk]

/-- What merging does to a bundle. -/
structure BundleDone (s0 t : Topo K W) (L : Nat → List Half) (a g : Nat) : Prop where
  same : Same s0 t
  rings : Rings t L
  fit : Fit t L
  out : Out s0 t a g
  /-- either nothing remains and the regions on the two sides are the same, or one segment with these regions remains -/
  done : ((∀ i, a ≤ i → i < a + g → t.deleted i = true) ∧ Rk s0.winding a (a + g) = (s0.winding a).cw) ∨
    ∃ f, a ≤ f ∧ f < a + g ∧ (∀ i, a ≤ i → i < a + g → (t.deleted i = false ↔ i = f)) ∧
      t.winding f = ⟨(s0.winding a).cw, Rk s0.winding a (a + g)⟩ ∧
      ((∀ i, a ≤ i → i < a + g → (s0.winding i).cw ≠ (s0.winding i).ccw) → (s0.winding a).cw ≠ Rk s0.winding a (a + g))

theorem bundle (close : Nat → Nat → K → K → Bool) (H : Bdl s0 L p a g D X Y) (hR : Rings s0 L) (hF : Fit s0 L)
    (hl : ∀ i, a ≤ i → i < a + g → s0.deleted i = false) :
    ∃ t, mergeLoop close (List.range' a g) s0 = some t ∧ BundleDone s0 t L a g := by
  by_cases hD : D.filter (live s0) = []
  · -- nothing else at `p`
    have loop : ∀ m k t, k + m = a + g → a ≤ k → WR s0 t L a g k →
        ∃ t', mergeLoop close (List.range' k m) t = some t' ∧ WR s0 t' L a g (a + g) := by
      intro m
      induction m with
      | zero => intro k t hk _ N; have : k = a + g := by omega
                exact ⟨t, rfl, this ▸ N⟩
      | succ m ih =>
        intro k t hk hak N
        obtain ⟨t1, e1, N1⟩ := N.step close H hR hF hl hD hak (by omega)
        obtain ⟨t2, e2, N2⟩ := ih (k + 1) t1 (by omega) (by omega) N1
        refine ⟨t2, ?_, N2⟩
        rw [List.range'_succ]
        simp only [mergeLoop, e1]; exact e2
    have ho : Out s0 s0 a g := fun i _ => ⟨rfl, rfl⟩
    have hall := filter_id_of (l := List.range' a g) (P := fun i => !s0.deleted i)
      (by intro i hi; rw [List.mem_range'_1] at hi; simp [hl i hi.1 hi.2])
    have hp := H.hp
    -- the regions on both sides of the bundle agree
    have hsides : Rk s0.winding a (a + g) = (s0.winding a).cw := by
      by_cases hg : g = 0
      · unfold Rk; simp [hg]
      have ringP := hR p (by omega)
      have fitP := hF p (by omega)
      rw [H.filterP ho, hall, hD, List.append_nil] at ringP fitP
      have e1 : List.range' a g = a :: List.range' (a + 1) (g - 1) := by
        have : g = (g - 1) + 1 := by omega
        rw [this, List.range'_succ]; simp
      have hlist : (firsts (List.range' a g)).reverse = (firsts (List.range' (a + 1) (g - 1))).reverse ++ [⟨a, true⟩] := by
        rw [e1]; simp [firsts]
      have hhead : ((firsts (List.range' a g)).reverse).head? = some ⟨a + g - 1, true⟩ := by
        rw [List.head?_reverse]
        have : firsts (List.range' a g) = firsts (List.range' a (g - 1)) ++ [⟨a + g - 1, true⟩] := by
          have h3 := List.range'_append (s := a) (m := g - 1) (n := 1) (step := 1)
          rw [show a + 1 * (g - 1) = a + g - 1 by omega, show g - 1 + 1 = g by omega] at h3
          rw [← h3]; simp [firsts]
        rw [this]; simp
      have hmem : (⟨a, true⟩ : Half) ∈ (firsts (List.range' a g)).reverse := by rw [hlist]; simp
      have hfit := fitP _ hmem
      rw [hlist] at ringP hhead
      rw [(ring_wrap ringP hhead).1] at hfit
      unfold Rk
      rw [if_neg (by omega)]
      simpa [Topo.windingCw, Topo.windingCcw] using hfit.symm
    obtain ⟨t, e1, N⟩ := loop g a s0 rfl (le_refl _) ⟨Same.refl _, hR, ho, a + g, by omega, le_refl _,
      fun i h1 h2 => ⟨fun _ => ⟨h1, h2⟩, fun _ => hl i h1 h2⟩, fun i _ _ => rfl, fun i _ _ => rfl, fun h => by
        rw [H.chain hR hF hl a (le_refl _) (by omega)] at hsides
        rw [← H.chain hR hF hl a (le_refl _) (by omega)] at hsides
        rw [← H.chain hR hF hl a (le_refl _) (by omega), ← hsides]
        unfold Rk; rw [if_neg (by omega)]⟩
    obtain ⟨e, he1, he2, halive, _⟩ := N.alive
    have hdead : ∀ i, a ≤ i → i < a + g → t.deleted i = true := by
      intro i h1 h2
      cases hd : t.deleted i with
      | true => rfl
      | false => have := (halive i h1 h2).1 hd; omega
    refine ⟨t, e1, N.same, N.rings, ?_, N.out, .inl ⟨hdead, hsides⟩⟩
    -- the windings fit
    have hnone : (List.range' a g).filter (fun i => !t.deleted i) = [] :=
      filter_nil_of (by intro i hi; rw [List.mem_range'_1] at hi; simp [hdead i hi.1 hi.2])
    have hw : ∀ h : Half, ¬ (a ≤ h.idx ∧ h.idx < a + g) → t.windingCw h = s0.windingCw h ∧ t.windingCcw h = s0.windingCcw h := by
      intro h hh
      unfold Topo.windingCw Topo.windingCcw
      rw [(N.out h.idx hh).2]; exact ⟨rfl, rfl⟩
    intro r hr h hm
    have hr' : r < s0.points.length := by rw [← N.same.points]; exact hr
    have path : ∃ w, WPath t.windingCw t.windingCcw w ((L r).filter (live t)) w := by
      by_cases hrp : r = p
      · subst hrp
        rw [H.filterP N.out, hnone, hD]; exact ⟨0, rfl⟩
      · by_cases hrq : r = p + 1
        · subst hrq
          obtain ⟨w, hw0⟩ := fit_path (hR (p + 1) hp) (hF (p + 1) hp)
          rw [H.filterQ ho, hall] at hw0
          rw [H.filterQ N.out, hnone]
          obtain ⟨m1, p1, p2⟩ := hw0.splitAt
          obtain ⟨m2, p3, p4⟩ := p2.splitAt
          have hm12 : m1 = m2 := by
            by_cases hg : g = 0
            · rw [hg] at p3; exact p3
            have first : (s0.winding a).cw = m1 := by
              have e1 : List.range' a g = a :: List.range' (a + 1) (g - 1) := by
                have : g = (g - 1) + 1 := by omega
                rw [this, List.range'_succ]; simp
              rw [e1] at p3
              simpa [seconds, Topo.windingCcw] using p3.1
            have last : (s0.winding (a + g - 1)).ccw = m2 := by
              have h3 := List.range'_append (s := a) (m := g - 1) (n := 1) (step := 1)
              rw [show a + 1 * (g - 1) = a + g - 1 by omega, show g - 1 + 1 = g by omega] at h3
              rw [← h3] at p3
              have e2 : seconds (List.range' a (g - 1) ++ List.range' (a + g - 1) 1) =
                  seconds (List.range' a (g - 1)) ++ [⟨a + g - 1, false⟩] := by simp [seconds]
              rw [e2] at p3
              obtain ⟨m3, _, p5⟩ := p3.splitAt
              have p6 := p5.2
              simpa [Topo.windingCw, WPath] using p6
            rw [← first, ← last, ← hsides]
            unfold Rk; rw [if_neg (by omega)]
          have p6 := p1.append (hm12 ▸ p4)
          refine ⟨w, ?_⟩
          simp only [seconds, List.map_nil, List.nil_append]
          refine p6.congr ?_ ?_
          · intro b hb
            refine (hw b ?_).1
            rcases List.mem_append.1 hb with hb | hb
            · exact H.notX b (List.mem_of_mem_filter hb)
            · exact H.notY b (List.mem_of_mem_filter hb)
          · intro b hb
            refine (hw b ?_).2
            rcases List.mem_append.1 hb with hb | hb
            · exact H.notX b (List.mem_of_mem_filter hb)
            · exact H.notY b (List.mem_of_mem_filter hb)
        · have hno := H.other r hr' hrp hrq
          rw [N.out.filter (L r) hno]
          obtain ⟨w, hw0⟩ := fit_path (hR r hr') (hF r hr')
          exact ⟨w, hw0.congr (fun b hb => (hw b (hno b (List.mem_of_mem_filter hb))).1)
            (fun b hb => (hw b (hno b (List.mem_of_mem_filter hb))).2)⟩
    obtain ⟨w, hw1⟩ := path
    exact ring_fit (N.rings r hr) hw1 hm
  · have loop : ∀ m k t, k + m = a + g → a ≤ k → NW s0 t L a g k →
        ∃ t', mergeLoop close (List.range' k m) t = some t' ∧ NW s0 t' L a g (a + g) := by
      intro m
      induction m with
      | zero => intro k t hk _ N; have : k = a + g := by omega
                exact ⟨t, rfl, this ▸ N⟩
      | succ m ih =>
        intro k t hk hak N
        obtain ⟨t1, e1, N1⟩ := N.step close H hR hF hl hD hak (by omega)
        obtain ⟨t2, e2, N2⟩ := ih (k + 1) t1 (by omega) (by omega) N1
        refine ⟨t2, ?_, N2⟩
        rw [List.range'_succ]
        simp only [mergeLoop, e1]; exact e2
    obtain ⟨t, e1, N⟩ := loop g a s0 rfl (le_refl _) ⟨Same.refl _, hR, hF, fun i _ => ⟨rfl, rfl⟩,
      fun i h1 h2 => ⟨hl i h1 h2, rfl⟩, .inl ⟨fun i h1 h2 => by omega, by unfold Rk; simp⟩⟩
    exact ⟨t, e1, N.same, N.rings, N.fit, N.out, N.base⟩

end

end Verif.Merge
