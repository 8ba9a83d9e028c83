import Verif.Geom.Model
import Verif.Curve.Props
import Mathlib.Tactic.Linarith
import Mathlib.Tactic.Ring
import Mathlib.Tactic.LinearCombination
import Mathlib.Tactic.FieldSimp
import Mathlib.Tactic.NormNum

/-! Lemmas for the sign classification of quadratics (no claims). -/

namespace Verif.Geom
open Verif.Curve

/-- Every piece of a comparison satisfies its predicate at every height from `y0` on. -/
def Snd (P : Order → ℝ → Prop) (y0 : ℝ) (c : CurveOrder ℝ) : Prop :=
  ∀ p ∈ c.iter, ∀ t, y0 ≤ t → p.lo ≤ t → t ≤ p.hi → P p.order t

theorem endsAt_unique {c : CurveOrder ℝ} {a b : ℝ} (h : Curve.EndsAt c a) (h' : Curve.EndsAt c b) : a = b := by
  obtain ⟨l, h1, h2⟩ := h
  obtain ⟨l', h3, h4⟩ := h'
  rw [h1] at h3; simp at h3; subst h3; rw [← h2, h4]

/-- The pieces cover the whole range. -/
theorem wf_cover {c : CurveOrder ℝ} (h : WF c) {E y : ℝ} (hE : Curve.EndsAt c E) (h0 : c.start ≤ y) (h1 : y ≤ E) :
    ∃ p ∈ c.iter, p.lo ≤ y ∧ y ≤ p.hi := by
  rcases eq_or_lt_of_le h0 with e | hlt
  · obtain ⟨s, es⟩ := c
    cases es with
    | nil => exact absurd rfl h.1
    | cons a l =>
      refine ⟨⟨s, a.stop, a.order⟩, by simp [CurveOrder.iter, pieces], e.le, ?_⟩
      have := h.2.head
      exact e ▸ this.2
  · obtain ⟨p, hp, a, b⟩ := h.2.exists_piece hlt (by
      obtain ⟨p, hp, e⟩ := wf_last_mem hE
      exact ⟨p, hp, e.ge⟩) h1
    exact ⟨p, hp, a.le, b⟩

theorem push_sound {P : Order → ℝ → Prop} (hex : ∀ t, P .left t → P .right t → False) {y0 : ℝ} {c : CurveOrder ℝ} (h : WF c) {E : ℝ}
    (hE : Curve.EndsAt c E) (hs : Snd P y0 c) {e : ℝ} {o : Order} (he : E ≤ e) (hy0 : y0 ≤ E) (ho : ∀ t, E ≤ t → t ≤ e → P o t) :
    ∃ c', c.push e o = some c' ∧ WF c' ∧ c'.start = c.start ∧ Curve.EndsAt c' e ∧ Snd P y0 c' := by
  obtain ⟨c', h1, h2, h3, h4⟩ := C07_push c h E hE e o he
  refine ⟨c', h1, h2, h3, h4, ?_⟩
  obtain ⟨as, l, h5, h6⟩ := wf_snoc h
  have hl : l.stop = E := by
    obtain ⟨l', h3, h4⟩ := hE
    rw [h6] at h3; simp at h3; rw [h3]; exact h4
  have hi := iter_snoc h5
  have hlP : P l.order E := by
    have : (⟨((as.getLast?).map Entry.stop).getD c.start, l.stop, l.order⟩ : Piece ℝ) ∈ c.iter := by rw [hi]; simp
    refine hs _ this E hy0 ?_ (le_of_eq hl.symm)
    have := h.2.lo_le _ this
    dsimp only at this ⊢
    rw [← hl]
    exact this.2
  have hoP : P o E := ho E le_rfl he
  have hdrop : c.cmps.dropLast = as := by rw [h5]; simp
  -- the merged piece
  have same : ∀ c'' : CurveOrder ℝ, c'' = ⟨c.start, as ++ [⟨e, l.order⟩]⟩ → l.order = o → Snd P y0 c'' := by
    rintro c'' rfl hlo p hp t ht hpl hph
    have := iter_snoc (c := ⟨c.start, as ++ [⟨e, l.order⟩]⟩) (as := as) rfl
    rw [this] at hp
    rcases List.mem_append.1 hp with hp | hp
    · exact hs p (by rw [hi]; exact List.mem_append_left _ hp) t ht hpl hph
    · simp only [List.mem_singleton] at hp
      subst hp
      by_cases htE : t ≤ E
      · exact hs ⟨_, l.stop, l.order⟩ (by rw [hi]; simp) t ht hpl (by rw [hl]; exact htE)
      · dsimp only
        rw [hlo]
        exact ho t (le_of_lt (not_le.1 htE)) hph
  have fresh : ∀ c'' : CurveOrder ℝ, c'' = ⟨c.start, c.cmps ++ [⟨e, o⟩]⟩ → Snd P y0 c'' := by
    rintro c'' rfl p hp t ht hpl hph
    have := iter_snoc (c := ⟨c.start, c.cmps ++ [⟨e, o⟩]⟩) (as := c.cmps) rfl
    rw [this] at hp
    rcases List.mem_append.1 hp with hp | hp
    · exact hs p hp t ht hpl hph
    · simp only [List.mem_singleton] at hp
      subst hp
      refine ho t ?_ hph
      rw [h6] at hpl
      simpa [hl] using hpl
  have hnlt : ¬ e < l.stop := by rw [hl]; exact not_lt.2 he
  simp only [CurveOrder.push, h6, hnlt, if_false] at h1
  rw [hdrop] at h1
  have hlo : l.order = .left → o = .right → False := fun a b => hex E (by rw [← a]; exact hlP) (by rw [← b]; exact hoP)
  have hro : l.order = .right → o = .left → False := fun a b => hex E (by rw [← b]; exact hoP) (by rw [← a]; exact hlP)
  cases hc : l.order <;> cases o <;> simp only [hc, reduceCtorEq, forall_const, imp_false, not_true_eq_false, not_false_eq_true] at h1 hlo hro
    <;> first
      | (exfalso; exact hlo rfl)
      | (simp only [Option.some.injEq] at h1; first | exact same c' (by rw [← h1, hc]) hc | exact fresh c' h1.symm)
      | (split at h1
         · exact fresh c' (by simpa using h1.symm)
         · have : c' = c := by simpa using h1.symm
           rw [this]; exact hs)

/-- The state while classifying: nothing pushed yet and the current end is `y0`, or a sound comparison ending at `cur`. -/
def Prog (P : Order → ℝ → Prop) (s y0 y1 cur : ℝ) (c : CurveOrder ℝ) : Prop :=
  c.start = s ∧ ((c.cmps = [] ∧ cur = y0) ∨ (WF c ∧ Curve.EndsAt c cur ∧ y0 < cur ∧ cur ≤ y1 ∧ Snd P y0 c))

/-- What a list of calls must satisfy: between the previous ends and its own, each order holds. -/
def Valid (P : Order → ℝ → Prop) : (ℝ → Prop) → List (Option ℝ × Order) → Prop
  | _, [] => True
  | pre, (none, _) :: l => Valid P pre l
  | pre, (some e, o) :: l => (∀ t, pre t → t ≤ e → P o t) ∧ Valid P (fun t => pre t ∧ e ≤ t) l

theorem Valid.mono {P : Order → ℝ → Prop} {pre pre' : ℝ → Prop} (hp : ∀ t, pre' t → pre t) {l : List (Option ℝ × Order)} (h : Valid P pre l) :
    Valid P pre' l := by
  induction l generalizing pre pre' with
  | nil => trivial
  | cons a l ih =>
    obtain ⟨_ | e, o⟩ := a
    · exact ih (pre := pre) (pre' := pre') hp h
    · exact ⟨fun t ht => h.1 t (hp t ht), ih (pre := fun t => pre t ∧ e ≤ t) (pre' := fun t => pre' t ∧ e ≤ t) (fun t ht => ⟨hp t ht.1, ht.2⟩) h.2⟩

theorem pushSign_ok {P : Order → ℝ → Prop} (hex : ∀ t, P .left t → P .right t → False) {s y0 y1 : ℝ} (hs : s ≤ y0) (hy : y0 < y1)
    {cur e : ℝ} {c : CurveOrder ℝ} {o : Order} (h : Prog P s y0 y1 cur c) (ho : ∀ t, cur ≤ t → t ≤ e → P o t) :
    ∃ c', pushSign y0 y1 c (some e) o = some c' ∧ Prog P s y0 y1 (max cur (min e y1)) c' := by
  obtain ⟨hst, ⟨h1, h2⟩ | ⟨h1, h2, h3, h4, h5⟩⟩ := h
  · subst h2
    by_cases he : cur < e
    · have hm : cur < min e y1 := lt_min he hy
      have hpush : c.push (min e y1) o = some ⟨c.start, [⟨min e y1, o⟩]⟩ := by simp [CurveOrder.push, h1]
      refine ⟨⟨c.start, [⟨min e y1, o⟩]⟩, ?_, hst, .inr ⟨⟨by simp, ?_⟩, ⟨_, rfl, ?_⟩, ?_, ?_, ?_⟩⟩
      · simp only [pushSign, h1, List.getLast?_nil, he, and_self, if_true, hpush]
      · simp only [CurveOrder.iter, pieces, Tiled, true_and]
        rw [hst]; exact le_of_lt (lt_of_le_of_lt hs hm)
      · rw [max_eq_right hm.le]; rfl
      · rw [max_eq_right hm.le]; exact hm
      · rw [max_eq_right hm.le]; exact min_le_right _ _
      · intro p hp t ht _ hph
        simp only [CurveOrder.iter, pieces, List.mem_singleton] at hp
        subst hp
        exact ho t ht (le_trans hph (min_le_left _ _))
    · refine ⟨c, by simp only [pushSign, he, false_and, if_false], hst, .inl ⟨h1, ?_⟩⟩
      exact max_eq_left (le_trans (min_le_left _ _) (not_lt.1 he))
  · obtain ⟨l, hl, hlc⟩ := h2
    by_cases he : cur < e ∧ cur < y1
    · have hm : cur < min e y1 := lt_min he.1 he.2
      obtain ⟨c', g1, g2, g3, g4, g5⟩ := push_sound hex h1 ⟨l, hl, hlc⟩ h5 hm.le h3.le (e := min e y1) (o := o)
        (fun t a b => ho t a (le_trans b (min_le_left _ _)))
      refine ⟨c', ?_, by rw [g3, hst], .inr ?_⟩
      · simp only [pushSign, hl, hlc, he, h3.trans he.1, and_self, if_true, g1]
      · rw [max_eq_right hm.le]
        exact ⟨g2, g4, h3.trans hm, min_le_right _ _, g5⟩
    · refine ⟨c, ?_, hst, .inr ?_⟩
      · rw [pushSign, if_neg]
        rw [hl]
        dsimp only
        rw [hlc]
        exact fun a => he ⟨a.2.2, a.2.1⟩
      · have : max cur (min e y1) = cur := by
          apply max_eq_left
          by_contra hc
          rw [not_le, lt_min_iff] at hc
          exact he hc
        rw [this]
        exact ⟨h1, ⟨l, hl, hlc⟩, h3, h4, h5⟩

theorem pushSigns_ok {P : Order → ℝ → Prop} (hex : ∀ t, P .left t → P .right t → False) {s y0 y1 : ℝ} (hs : s ≤ y0) (hy : y0 < y1)
    (l : List (Option ℝ × Order)) :
    ∀ (pre : ℝ → Prop) (cur : ℝ) (c : CurveOrder ℝ), Prog P s y0 y1 cur c → y0 ≤ cur → (cur < y1 → ∀ t, cur ≤ t → pre t) →
      Valid P pre l → ∃ c' cur', pushSigns y0 y1 c l = some c' ∧ Prog P s y0 y1 cur' c' ∧ cur ≤ cur' ∧
        (∀ e o, (some e, o) ∈ l → min e y1 ≤ cur') := by
  induction l with
  | nil => intro pre cur c h _ _ _; exact ⟨c, cur, rfl, h, le_rfl, by simp⟩
  | cons a l ih =>
    intro pre cur c h h0 hpre hv
    obtain ⟨_ | e, o⟩ := a
    · obtain ⟨c', cur', g1, g2, g3, g4⟩ := ih pre cur c h h0 hpre hv
      refine ⟨c', cur', ?_, g2, g3, ?_⟩
      · simpa only [pushSigns, pushSign] using g1
      · intro e o' hm
        simp only [List.mem_cons, Prod.mk.injEq, reduceCtorEq, false_and, false_or] at hm
        exact g4 e o' hm
    · have hstep : ∃ c₁, pushSign y0 y1 c (some e) o = some c₁ ∧ Prog P s y0 y1 (max cur (min e y1)) c₁ := by
        by_cases hlt : cur < y1
        · exact pushSign_ok hex hs hy h (fun t a b => hv.1 t (hpre hlt t a) b)
        · -- already at the end
          have hc : max cur (min e y1) = cur := max_eq_left (le_trans (min_le_right _ _) (not_lt.1 hlt))
          rw [hc]
          refine ⟨c, ?_, h⟩
          obtain ⟨_, ⟨_, h2⟩ | ⟨_, ⟨l', hl, hlc⟩, _⟩⟩ := h
          · exact absurd hy (by rw [← h2]; exact hlt)
          · rw [pushSign, if_neg]
            rw [hl]; dsimp only; rw [hlc]
            exact fun a => hlt a.2.1
      obtain ⟨c₁, f1, f2⟩ := hstep
      have := ih (fun t => pre t ∧ e ≤ t) (max cur (min e y1)) c₁ f2 (le_trans h0 (le_max_left _ _)) (by
        intro hlt t ht
        have h1 : cur < y1 := lt_of_le_of_lt (le_max_left _ _) hlt
        have h2 : min e y1 < y1 := lt_of_le_of_lt (le_max_right _ _) hlt
        have h3 : min e y1 = e := by
          rcases min_choice e y1 with h | h
          · exact h
          · rw [h] at h2; exact absurd h2 (lt_irrefl _)
        refine ⟨hpre h1 t (le_trans (le_max_left _ _) ht), ?_⟩
        rw [← h3]; exact le_trans (le_max_right _ _) ht) hv.2
      obtain ⟨c', cur', g1, g2, g3, g4⟩ := this
      refine ⟨c', cur', ?_, g2, le_trans (le_max_left _ _) g3, ?_⟩
      · simp only [pushSigns, f1, g1]
      · intro e' o' hm
        rcases List.mem_cons.1 hm with hm | hm
        · simp only [Prod.mk.injEq, Option.some.injEq] at hm
          rw [hm.1]; exact le_trans (le_max_right _ _) g3
        · exact g4 e' o' hm

/-- The whole run: it ends at `y1` and is sound. -/
theorem pushSigns_run {P : Order → ℝ → Prop} (hex : ∀ t, P .left t → P .right t → False) {s y0 y1 : ℝ} (hs : s ≤ y0) (hy : y0 < y1)
    {l : List (Option ℝ × Order)} (hv : Valid P (fun _ => True) l) (hlast : ∃ o, (some y1, o) ∈ l) :
    ∃ c', pushSigns y0 y1 (CurveOrder.new s) l = some c' ∧ c'.start = s ∧ WF c' ∧ Curve.EndsAt c' y1 ∧ Snd P y0 c' := by
  obtain ⟨c', cur', g1, ⟨g0, g2⟩, g3, g4⟩ := pushSigns_ok hex hs hy l (fun _ => True) y0 (CurveOrder.new s) ⟨rfl, .inl ⟨rfl, rfl⟩⟩ le_rfl
    (fun _ _ _ => trivial) hv
  obtain ⟨o, ho⟩ := hlast
  have hc := g4 y1 o ho
  rw [min_self] at hc
  rcases g2 with ⟨_, h2⟩ | ⟨h1, h2, h3, h4, h5⟩
  · rw [h2] at hc; exact absurd hy (not_lt.2 hc)
  · have : cur' = y1 := le_antisymm h4 hc
    rw [this] at h2
    exact ⟨c', g1, g0, h1, h2, h5⟩

/-! ## Roots -/

theorem monicRoots_none {b c : ℝ} (h : monicRoots b c = none) (t : ℝ) : 0 ≤ t * t + b * t + c := by
  have hd : b * b - 4 * c ≤ 0 := by
    by_contra hc
    simp only [monicRoots, hc, if_false] at h
    split at h <;> simp at h
  nlinarith [sq_nonneg (2 * t + b)]

theorem monicRoots_some {b c r s : ℝ} (h : monicRoots b c = some (r, s)) :
    r < s ∧ ∀ t, t * t + b * t + c = (t - r) * (t - s) := by
  have hd : ¬ b * b - 4 * c ≤ 0 := by
    intro hc
    simp [monicRoots, hc] at h
  rw [not_le] at hd
  simp only [monicRoots, not_le.2 hd, if_false] at h
  set w := Real.sqrt (b * b - 4 * c) with hw
  have hwpos : 0 < w := Real.sqrt_pos.2 hd
  have hww : w * w = b * b - 4 * c := Real.mul_self_sqrt hd.le
  set z := b + copysign w b with hz
  have hz0 : z ≠ 0 ∧ z * z = 2 * b * z - 4 * c := by
    rw [hz]
    unfold copysign
    split
    · constructor
      · intro hc; nlinarith
      · nlinarith
    · constructor
      · intro hc; nlinarith
      · nlinarith
  have hr1 : -(1 / 2) * z ≠ 0 := by
    intro hc; apply hz0.1; linarith
  set r1 := -(1 / 2) * z with hr1d
  set r2 := c / r1 with hr2d
  have hprod : r1 * r2 = c := by rw [hr2d]; field_simp
  have hsum : r1 + r2 = -b := by
    have h1 : r1 * (r1 + r2 + b) = 0 := by
      have : r1 * r1 + r1 * b + c = 0 := by rw [hr1d]; nlinarith [hz0.2]
      linear_combination this + hprod
    rcases mul_eq_zero.1 h1 with h | h
    · exact absurd h hr1
    · linarith
  have hne : r1 ≠ r2 := by
    intro he
    rw [← he] at hprod hsum
    nlinarith
  have hfac : ∀ t, t * t + b * t + c = (t - r1) * (t - r2) := by
    intro t
    clear_value r2 r1
    linear_combination t * hsum - hprod
  by_cases hlt : r1 < r2
  · rw [if_pos hlt] at h
    simp only [Option.some.injEq, Prod.mk.injEq] at h
    rw [← h.1, ← h.2]
    exact ⟨hlt, hfac⟩
  · rw [if_neg hlt] at h
    simp only [Option.some.injEq, Prod.mk.injEq] at h
    rw [← h.1, ← h.2]
    exact ⟨lt_of_le_of_ne (not_lt.1 hlt) hne.symm, fun t => by rw [hfac]; ring⟩

/-- The orders reported by the classification. -/
def QuadOrd (f : ℝ → ℝ) (lower upper : ℝ) : Order → ℝ → Prop
  | .left, t => upper ≤ f t
  | .right, t => f t ≤ lower
  | .ish, t => lower ≤ f t ∧ f t ≤ upper

theorem quadOrd_ex {f : ℝ → ℝ} {lower upper : ℝ} (h : lower < upper) (t : ℝ) : QuadOrd f lower upper .left t → QuadOrd f lower upper .right t → False :=
  fun h1 h2 => absurd (le_trans h1 h2) (not_le.2 h)

/-- The sign of `a t² + b t + c - k` from the roots of the monic quadratic. -/
theorem roots_sign {a b c k : ℝ} (ha : a ≠ 0) :
    (monicRoots (b * (1 / a)) ((c - k) * (1 / a)) = none → ∀ t, 0 ≤ a * (a * t * t + b * t + c - k)) ∧
    (∀ r s, monicRoots (b * (1 / a)) ((c - k) * (1 / a)) = some (r, s) → r < s ∧ ∀ t, a * t * t + b * t + c - k = a * ((t - r) * (t - s))) := by
  have hm : ∀ t, a * t * t + b * t + c - k = a * (t * t + b * (1 / a) * t + (c - k) * (1 / a)) := by
    intro t; field_simp; ring
  constructor
  · intro h t
    rw [hm]
    have := monicRoots_none h t
    nlinarith [mul_self_nonneg a]
  · intro r s h
    obtain ⟨h1, h2⟩ := monicRoots_some h
    exact ⟨h1, fun t => by rw [hm, h2]⟩

theorem pushQuadraticSigns_ok (a b c lower upper y0 y1 s : ℝ) (hlu : lower < upper) (hs : s ≤ y0) (hy : y0 < y1) :
    ∃ out, pushQuadraticSigns a b c lower upper y0 y1 (CurveOrder.new s) = some out ∧ out.start = s ∧ WF out ∧ Curve.EndsAt out y1 ∧
      Snd (QuadOrd (fun t => a * t * t + b * t + c) lower upper) y0 out := by
  have hex := quadOrd_ex (f := fun t => a * t * t + b * t + c) hlu
  by_cases ha : a = 0
  · subst ha
    by_cases hb : b = 0
    · subst hb
      simp only [pushQuadraticSigns, if_true]
      have hcongr : ∀ o, pushSign y0 y1 (CurveOrder.new s) (some y1) o = pushSigns y0 y1 (CurveOrder.new s) [(some y1, o)] := by
        intro o
        simp only [pushSigns]
        cases pushSign y0 y1 (CurveOrder.new s) (some y1) o <;> rfl
      rw [hcongr]
      refine pushSigns_run hex hs hy ⟨?_, trivial⟩ ⟨_, List.mem_singleton.2 rfl⟩
      intro t _ _
      by_cases h1 : c < lower
      · simp only [h1, if_true, QuadOrd]; linarith
      · by_cases h2 : upper < c
        · simp only [h1, h2, if_true, if_false, QuadOrd]; linarith
        · simp only [h1, h2, if_false, QuadOrd]; constructor <;> linarith
    · simp only [pushQuadraticSigns, if_true, hb, if_false]
      have e0 : ∀ t, b * t + c - lower = b * (t - -(c - lower) / b) := by intro t; field_simp; ring
      have e1 : ∀ t, b * t + c - upper = b * (t - -(c - upper) / b) := by intro t; field_simp; ring
      by_cases hbp : 0 < b
      · rw [if_pos hbp]
        refine pushSigns_run hex hs hy ⟨?_, ?_, ?_, trivial⟩ ⟨.left, by simp⟩
        · intro t _ ht
          have := e0 t
          have : b * (t - -(c - lower) / b) ≤ 0 := mul_nonpos_of_nonneg_of_nonpos hbp.le (by linarith)
          show 0 * t * t + b * t + c ≤ lower
          linarith
        · rintro t ⟨_, ht0⟩ ht
          have h0 := e0 t
          have h1 := e1 t
          have g0 : 0 ≤ b * (t - -(c - lower) / b) := mul_nonneg hbp.le (by linarith)
          have g1 : b * (t - -(c - upper) / b) ≤ 0 := mul_nonpos_of_nonneg_of_nonpos hbp.le (by linarith)
          exact ⟨show lower ≤ 0 * t * t + b * t + c by linarith, show 0 * t * t + b * t + c ≤ upper by linarith⟩
        · rintro t ⟨_, ht0⟩ ht
          have h1 := e1 t
          have g1 : 0 ≤ b * (t - -(c - upper) / b) := mul_nonneg hbp.le (by linarith)
          show upper ≤ 0 * t * t + b * t + c
          linarith
      · rw [if_neg hbp]
        have hbn : b ≤ 0 := not_lt.1 hbp
        refine pushSigns_run hex hs hy ⟨?_, ?_, ?_, trivial⟩ ⟨.right, by simp⟩
        · intro t _ ht
          have := e1 t
          have : 0 ≤ b * (t - -(c - upper) / b) := mul_nonneg_of_nonpos_of_nonpos hbn (by linarith)
          show upper ≤ 0 * t * t + b * t + c
          linarith
        · rintro t ⟨_, ht0⟩ ht
          have h0 := e0 t
          have h1 := e1 t
          have g0 : 0 ≤ b * (t - -(c - lower) / b) := mul_nonneg_of_nonpos_of_nonpos hbn (by linarith)
          have g1 : b * (t - -(c - upper) / b) ≤ 0 := mul_nonpos_of_nonpos_of_nonneg hbn (by linarith)
          exact ⟨show lower ≤ 0 * t * t + b * t + c by linarith, show 0 * t * t + b * t + c ≤ upper by linarith⟩
        · rintro t ⟨_, ht0⟩ ht
          have h1 := e0 t
          have g1 : b * (t - -(c - lower) / b) ≤ 0 := mul_nonpos_of_nonpos_of_nonneg hbn (by linarith)
          show 0 * t * t + b * t + c ≤ lower
          linarith
  · obtain ⟨l1, l2⟩ := roots_sign (a := a) (b := b) (c := c) (k := lower) ha
    obtain ⟨u1, u2⟩ := roots_sign (a := a) (b := b) (c := c) (k := upper) ha
    simp only [pushQuadraticSigns, ha, if_false]
    by_cases hap : 0 < a
    · rw [if_pos hap]
      refine pushSigns_run hex hs hy ?_ ⟨.left, by simp⟩
      cases hl : monicRoots (b * (1 / a)) ((c - lower) * (1 / a)) with
      | none =>
        have hlo : ∀ t, lower ≤ a * t * t + b * t + c := fun t => by
          have := l1 hl t
          have := nonneg_of_mul_nonneg_right this hap
          linarith
        cases hu : monicRoots (b * (1 / a)) ((c - upper) * (1 / a)) with
        | none =>
          refine ⟨fun t _ _ => ?_, trivial⟩
          have := nonneg_of_mul_nonneg_right (u1 hu t) hap
          show upper ≤ a * t * t + b * t + c
          linarith
        | some p =>
          obtain ⟨r, s'⟩ := p
          obtain ⟨hrs, hf⟩ := u2 r s' hu
          refine ⟨fun t _ h1 => ?_, fun t h1 h2 => ?_, fun t h1 h2 => ?_, trivial⟩
          · have := hf t
            have h0 := mul_nonneg hap.le (mul_nonneg_of_nonpos_of_nonpos (show t - r ≤ 0 by linarith) (show t - s' ≤ 0 by linarith))
            show upper ≤ a * t * t + b * t + c
            linarith
          · have := hf t
            have h0 := mul_nonpos_of_nonneg_of_nonpos hap.le (mul_nonpos_of_nonneg_of_nonpos (show 0 ≤ t - r by linarith [h1.2]) (show t - s' ≤ 0 by linarith))
            exact ⟨hlo t, show a * t * t + b * t + c ≤ upper by linarith⟩
          · have := hf t
            have h0 := mul_nonneg hap.le (mul_nonneg (show 0 ≤ t - r by linarith [h1.2]) (show 0 ≤ t - s' by linarith [h1.2]))
            show upper ≤ a * t * t + b * t + c
            linarith
      | some p =>
        obtain ⟨rl, sl⟩ := p
        obtain ⟨hrsl, hfl⟩ := l2 rl sl hl
        cases hu : monicRoots (b * (1 / a)) ((c - upper) * (1 / a)) with
        | none =>
          exfalso
          have h1 := nonneg_of_mul_nonneg_right (u1 hu rl) hap
          have h2 := hfl rl
          rw [sub_self, zero_mul, mul_zero] at h2
          linarith
        | some p =>
          obtain ⟨r, s'⟩ := p
          obtain ⟨hrs, hf⟩ := u2 r s' hu
          refine ⟨fun t _ h1 => ?_, fun t h1 h2 => ?_, fun t h1 h2 => ?_, fun t h1 h2 => ?_, fun t h1 h2 => ?_, trivial⟩
          · have := hf t
            have h0 := mul_nonneg hap.le (mul_nonneg_of_nonpos_of_nonpos (show t - r ≤ 0 by linarith) (show t - s' ≤ 0 by linarith))
            show upper ≤ a * t * t + b * t + c
            linarith
          · have e1 := hf t
            have e2 := hfl t
            have h0 := mul_nonneg hap.le (mul_nonneg_of_nonpos_of_nonpos (show t - rl ≤ 0 by linarith) (show t - sl ≤ 0 by linarith))
            have hlo : lower ≤ a * t * t + b * t + c := by linarith
            refine ⟨hlo, ?_⟩
            show a * t * t + b * t + c ≤ upper
            -- t ≤ rl < s', because at s' the value is `upper`
            have hts : t ≤ s' := by
              by_contra hc
              rw [not_le] at hc
              have g1 := hfl s'
              have g2 := hf s'
              rw [sub_self s', mul_zero, mul_zero] at g2
              -- vertex: rl + sl = r + s'
              have v1 := hfl 0
              have v2 := hf 0
              have v3 := hfl 1
              have v4 := hf 1
              have hsum : rl + sl = r + s' := by
                have : a * (rl + sl) = a * (r + s') := by linarith
                exact mul_left_cancel₀ ha this
              linarith
            have h3 := mul_nonpos_of_nonneg_of_nonpos hap.le (mul_nonpos_of_nonneg_of_nonpos (show 0 ≤ t - r by linarith [h1.2]) (show t - s' ≤ 0 by linarith))
            linarith
          · have e1 := hfl t
            have h3 := mul_nonpos_of_nonneg_of_nonpos hap.le (mul_nonpos_of_nonneg_of_nonpos (show 0 ≤ t - rl by linarith [h1.2]) (show t - sl ≤ 0 by linarith))
            show a * t * t + b * t + c ≤ lower
            linarith
          · have e1 := hf t
            have e2 := hfl t
            have h0 := mul_nonneg hap.le (mul_nonneg (show 0 ≤ t - rl by linarith [h1.1.2]) (show 0 ≤ t - sl by linarith [h1.2]))
            have h3 := mul_nonpos_of_nonneg_of_nonpos hap.le (mul_nonpos_of_nonneg_of_nonpos (show 0 ≤ t - r by linarith [h1.1.1.2]) (show t - s' ≤ 0 by linarith))
            exact ⟨show lower ≤ a * t * t + b * t + c by linarith, show a * t * t + b * t + c ≤ upper by linarith⟩
          · have := hf t
            have h0 := mul_nonneg hap.le (mul_nonneg (show 0 ≤ t - r by linarith [h1.1.1.1.2]) (show 0 ≤ t - s' by linarith [h1.2]))
            show upper ≤ a * t * t + b * t + c
            linarith
    · rw [if_neg hap]
      have han : a < 0 := lt_of_le_of_ne (not_lt.1 hap) ha
      refine pushSigns_run hex hs hy ?_ ⟨.right, by simp⟩
      cases hu : monicRoots (b * (1 / a)) ((c - upper) * (1 / a)) with
      | none =>
        have hup : ∀ t, a * t * t + b * t + c ≤ upper := fun t => by
          have := u1 hu t
          by_contra hc
          have : a * (a * t * t + b * t + c - upper) < 0 := mul_neg_of_neg_of_pos han (by linarith)
          linarith
        cases hl : monicRoots (b * (1 / a)) ((c - lower) * (1 / a)) with
        | none =>
          refine ⟨fun t _ _ => ?_, trivial⟩
          show a * t * t + b * t + c ≤ lower
          have := l1 hl t
          by_contra hc
          have : a * (a * t * t + b * t + c - lower) < 0 := mul_neg_of_neg_of_pos han (by linarith)
          linarith
        | some p =>
          obtain ⟨r, s'⟩ := p
          obtain ⟨hrs, hf⟩ := l2 r s' hl
          refine ⟨fun t _ h1 => ?_, fun t h1 h2 => ?_, fun t h1 h2 => ?_, trivial⟩
          · have := hf t
            have h0 := mul_nonpos_of_nonpos_of_nonneg han.le (mul_nonneg_of_nonpos_of_nonpos (show t - r ≤ 0 by linarith) (show t - s' ≤ 0 by linarith))
            show a * t * t + b * t + c ≤ lower
            linarith
          · have := hf t
            have h0 := mul_nonneg_of_nonpos_of_nonpos han.le (mul_nonpos_of_nonneg_of_nonpos (show 0 ≤ t - r by linarith [h1.2]) (show t - s' ≤ 0 by linarith))
            exact ⟨show lower ≤ a * t * t + b * t + c by linarith, hup t⟩
          · have := hf t
            have h0 := mul_nonpos_of_nonpos_of_nonneg han.le (mul_nonneg (show 0 ≤ t - r by linarith [h1.2]) (show 0 ≤ t - s' by linarith [h1.2]))
            show a * t * t + b * t + c ≤ lower
            linarith
      | some p =>
        obtain ⟨ru, su⟩ := p
        obtain ⟨hrsu, hfu⟩ := u2 ru su hu
        cases hl : monicRoots (b * (1 / a)) ((c - lower) * (1 / a)) with
        | none =>
          exfalso
          have h1 := l1 hl ru
          have h2 := hfu ru
          rw [sub_self, zero_mul, mul_zero] at h2
          have : a * (a * ru * ru + b * ru + c - lower) < 0 := mul_neg_of_neg_of_pos han (by linarith)
          linarith
        | some p =>
          obtain ⟨r, s'⟩ := p
          obtain ⟨hrs, hf⟩ := l2 r s' hl
          have hsum : ru + su = r + s' := by
            have v1 := hfu 0
            have v2 := hf 0
            have v3 := hfu 1
            have v4 := hf 1
            have : a * (ru + su) = a * (r + s') := by linarith
            exact mul_left_cancel₀ ha this
          refine ⟨fun t _ h1 => ?_, fun t h1 h2 => ?_, fun t h1 h2 => ?_, fun t h1 h2 => ?_, fun t h1 h2 => ?_, trivial⟩
          · have := hf t
            have h0 := mul_nonpos_of_nonpos_of_nonneg han.le (mul_nonneg_of_nonpos_of_nonpos (show t - r ≤ 0 by linarith) (show t - s' ≤ 0 by linarith))
            show a * t * t + b * t + c ≤ lower
            linarith
          · have e1 := hf t
            have e2 := hfu t
            have h0 := mul_nonpos_of_nonpos_of_nonneg han.le (mul_nonneg_of_nonpos_of_nonpos (show t - ru ≤ 0 by linarith) (show t - su ≤ 0 by linarith))
            have hts : t ≤ s' := by
              by_contra hc
              rw [not_le] at hc
              linarith [h1.2]
            have h3 := mul_nonneg_of_nonpos_of_nonpos han.le (mul_nonpos_of_nonneg_of_nonpos (show 0 ≤ t - r by linarith [h1.2]) (show t - s' ≤ 0 by linarith))
            exact ⟨show lower ≤ a * t * t + b * t + c by linarith, show a * t * t + b * t + c ≤ upper by linarith⟩
          · have e1 := hfu t
            have h3 := mul_nonneg_of_nonpos_of_nonpos han.le (mul_nonpos_of_nonneg_of_nonpos (show 0 ≤ t - ru by linarith [h1.2]) (show t - su ≤ 0 by linarith))
            show upper ≤ a * t * t + b * t + c
            linarith
          · have e1 := hf t
            have e2 := hfu t
            have h0 := mul_nonpos_of_nonpos_of_nonneg han.le (mul_nonneg (show 0 ≤ t - ru by linarith [h1.1.2]) (show 0 ≤ t - su by linarith [h1.2]))
            have h3 := mul_nonneg_of_nonpos_of_nonpos han.le (mul_nonpos_of_nonneg_of_nonpos (show 0 ≤ t - r by linarith [h1.1.1.2]) (show t - s' ≤ 0 by linarith))
            exact ⟨show lower ≤ a * t * t + b * t + c by linarith, show a * t * t + b * t + c ≤ upper by linarith⟩
          · have := hf t
            have h0 := mul_nonpos_of_nonpos_of_nonneg han.le (mul_nonneg (show 0 ≤ t - r by linarith [h1.1.1.1.2]) (show 0 ≤ t - s' by linarith [h1.2]))
            show a * t * t + b * t + c ≤ lower
            linarith

end Verif.Geom
