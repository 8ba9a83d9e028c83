import Verif.Geom.IModel
import Mathlib.Order.Filter.AtTopBot.Basic

/-! Lemmas for `intersect_cubics` (no claims): building the result. -/

namespace Verif.Geom
open Verif.Curve

/-- A sound comparison from `s` to `cur`. -/
def Done (Q : Order → ℝ → Prop) (s cur : ℝ) (out : CurveOrder ℝ) : Prop :=
  WF out ∧ out.start = s ∧ Curve.EndsAt out cur ∧ s ≤ cur ∧ Snd Q s out

/-- The same, or nothing yet. -/
def Grow (Q : Order → ℝ → Prop) (s cur : ℝ) (out : CurveOrder ℝ) : Prop :=
  Done Q s cur out ∨ (out.cmps = [] ∧ out.start = s ∧ cur = s)

theorem Done.mono {Q Q' : Order → ℝ → Prop} {s cur : ℝ} {out : CurveOrder ℝ} (h : Done Q s cur out)
    (hq : ∀ o t, s ≤ t → t ≤ cur → Q o t → Q' o t) : Done Q' s cur out := by
  refine ⟨h.1, h.2.1, h.2.2.1, h.2.2.2.1, fun p hp t h0 h1 h2 => hq _ _ h0 ?_ (h.2.2.2.2 p hp t h0 h1 h2)⟩
  exact h2.trans (wf_hi_le h.1 h.2.2.1 p hp)

theorem Grow.le {Q : Order → ℝ → Prop} {s cur : ℝ} {out : CurveOrder ℝ} (h : Grow Q s cur out) : s ≤ cur := by
  rcases h with h | h
  · exact h.2.2.2.1
  · exact h.2.2.ge

theorem grow_push {Q : Order → ℝ → Prop} (hex : ∀ t, Q .left t → Q .right t → False) {s cur e : ℝ} {out : CurveOrder ℝ} {o : Order}
    (h : Grow Q s cur out) (he : cur ≤ e) (ho : ∀ t, cur ≤ t → t ≤ e → Q o t) : ∃ out', out.push e o = some out' ∧ Done Q s e out' := by
  rcases h with h | ⟨h1, h2, h3⟩
  · obtain ⟨h1, h2, h3, h4, h5⟩ := h
    obtain ⟨c', a, b, c, d, f⟩ := push_sound hex h1 h3 h5 he h4 ho
    exact ⟨c', a, b, c.trans h2, d, h4.trans he, f⟩
  · obtain ⟨st, es⟩ := out
    dsimp only at h1 h2
    subst h1 h2 h3
    refine ⟨⟨cur, [⟨e, o⟩]⟩, by simp [CurveOrder.push], ⟨by simp, by simp [CurveOrder.iter, pieces, Tiled, he]⟩, rfl, ⟨_, rfl, rfl⟩, he, ?_⟩
    intro p hp t h0 h1 h2
    simp only [CurveOrder.iter, pieces, List.mem_singleton] at hp
    subst hp
    exact ho t h0 h2

theorem setLast_done {Q : Order → ℝ → Prop} {s E y : ℝ} {out : CurveOrder ℝ} (h : Done Q s E out) (hE : E ≤ y)
    (hx : ∀ o t, Q o E → E ≤ t → t ≤ y → Q o t) : ∃ out', setLast out y = some out' ∧ Done Q s y out' := by
  obtain ⟨h1, h2, h3, h4, h5⟩ := h
  obtain ⟨as, l, h6, h7⟩ := wf_snoc h1
  have hl : l.stop = E := by
    obtain ⟨l', h3, h4⟩ := h3
    rw [h7] at h3; simp at h3; rw [h3]; exact h4
  have hi := iter_snoc h6
  have hd : out.cmps.dropLast = as := by rw [h6]; simp
  have hT := h1.2
  rw [hi] at hT
  have hT' := hT.extend (y := y) (by dsimp only; rw [hl]; exact hE)
  have hi' := iter_snoc (c := ⟨out.start, as ++ [⟨y, l.order⟩]⟩) (as := as) (e := ⟨y, l.order⟩) rfl
  refine ⟨⟨out.start, as ++ [⟨y, l.order⟩]⟩, by simp only [setLast, h7, hd], ⟨by simp, ?_⟩, h2, ⟨⟨y, l.order⟩, by simp, rfl⟩, h4.trans hE, ?_⟩
  · rw [hi']; exact hT'
  · intro p hp t h0 ha hb
    rw [hi'] at hp
    rcases List.mem_append.1 hp with hp | hp
    · exact h5 p (by rw [hi]; exact List.mem_append_left _ hp) t h0 ha hb
    · simp only [List.mem_singleton] at hp
      subst hp
      have hm : (⟨((as.getLast?).map Entry.stop).getD out.start, l.stop, l.order⟩ : Piece ℝ) ∈ out.iter := by rw [hi]; simp
      by_cases htE : t ≤ E
      · exact h5 _ hm t h0 ha (by rw [hl]; exact htE)
      · refine hx _ _ (h5 _ hm E h4 ?_ hl.ge) (not_le.1 htE).le hb
        have := h1.2.lo_le _ hm
        dsimp only at this ⊢
        rw [← hl]; exact this.2

/-- Consecutive pieces. -/
def Cons : ℝ → ℝ → List (Piece ℝ) → Prop
  | lo, hi, [] => lo = hi
  | lo, hi, p :: ps => p.lo = lo ∧ p.lo ≤ p.hi ∧ Cons p.hi hi ps

theorem Cons.le {lo hi : ℝ} {ps : List (Piece ℝ)} (h : Cons lo hi ps) : lo ≤ hi := by
  induction ps generalizing lo with
  | nil => exact le_of_eq h
  | cons p ps ih => obtain ⟨a, b, c⟩ := h; exact a ▸ b.trans (ih c)

theorem Cons.mem {lo hi : ℝ} {ps : List (Piece ℝ)} (h : Cons lo hi ps) : ∀ p ∈ ps, lo ≤ p.lo ∧ p.lo ≤ p.hi ∧ p.hi ≤ hi := by
  induction ps generalizing lo with
  | nil => simp
  | cons p ps ih =>
    obtain ⟨a, b, c⟩ := h
    intro q hq
    rcases List.mem_cons.1 hq with rfl | hq
    · exact ⟨a.ge, b, c.le⟩
    · obtain ⟨d, e, f⟩ := ih c q hq
      exact ⟨a ▸ b.trans d, e, f⟩

theorem cons_of_tiled {lo hi : ℝ} {ps : List (Piece ℝ)} (h : Tiled lo ps) (hne : ps ≠ []) (hl : ∀ p, ps.getLast? = some p → p.hi = hi) : Cons lo hi ps := by
  induction ps generalizing lo with
  | nil => exact absurd rfl hne
  | cons p ps ih =>
    have hh := h.head
    refine ⟨hh.1, hh.2, ?_⟩
    cases ps with
    | nil => exact hl p (by simp)
    | cons q qs =>
      refine ih h.tail (by simp) fun r hr => hl r ?_
      rw [List.getLast?_cons_cons]; exact hr

theorem cons_of_wf {c : CurveOrder ℝ} (h : WF c) {E : ℝ} (hE : Curve.EndsAt c E) : Cons c.start E c.iter := by
  refine cons_of_tiled h.2 ?_ fun p hp => ?_
  · rw [CurveOrder.iter, Ne, pieces_eq_nil]; exact h.1
  · obtain ⟨l, h1, h2⟩ := hE
    obtain ⟨as, l', h6, h7⟩ := wf_snoc h
    rw [h1] at h7
    have : l = l' := by simpa using h7
    subst this
    rw [iter_snoc h6] at hp
    simp at hp
    rw [← hp]; exact h2

end Verif.Geom
