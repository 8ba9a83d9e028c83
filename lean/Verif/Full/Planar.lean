import Verif.Full.Compare
import Verif.Sweep.Planar

/-! # Segments that do not cross: the sweep line is always in order -/

namespace Verif.Full
open Verif.Segs (Segments)
open Verif.Curve
set_option linter.unusedSectionVars false

/-- At some height that they have in common the segment `a` is to the left of the segment `b`. -/
def LeftOf (a b : Geom.Seg) : Prop :=
  ∃ t, (a.start.y ≤ t ∧ t ≤ a.stop.y) ∧ (b.start.y ≤ t ∧ t ≤ b.stop.y) ∧ a.atY t < b.atY t

/-- A segment of the arena that is not horizontal. -/
def Slanted (s : Segments ℝ) (i : Nat) : Prop := i < s.len ∧ (segAt s i).start.y < (segAt s i).stop.y

/-- No two segments cross. They may touch, share end points and coincide. -/
def NoCross (s : Segments ℝ) : Prop := ∀ i j, Slanted s i → Slanted s j → LeftOf (segAt s i) (segAt s j) → ¬ LeftOf (segAt s j) (segAt s i)

/-- The comparisons with tolerance `eps` tell apart any two segments that differ at some height. -/
def Resolved (cfg : Cfg) (s : Segments ℝ) : Prop :=
  ∀ i j, Slanted s i → Slanted s j → LeftOf (segAt s i) (segAt s j) →
    ((env cfg s).cmp i j).orderAfter (max (segAt s i).start.y (segAt s j).start.y) = some .left ∧
    ((env cfg s).cmp j i).orderAfter (max (segAt s i).start.y (segAt s j).start.y) = some .right

variable {T : Type} {s : Segments ℝ} {tags : List T} {cfg : Cfg}

theorem tall_iff (h : Arena s tags) (i : Nat) : (env cfg s).Tall i ↔ Slanted s i := by
  unfold Sweep.Env.Tall Slanted
  rw [mem_segs h]; rfl

theorem Slanted.down (h : Arena s tags) {i : Nat} (hi : Slanted s i) : (segAt s i).Down := by
  refine h.down (cfg := ⟨0, fun _ _ _ _ => [], fun _ _ => true, fun _ _ => true, fun _ _ => 0, 0, 0⟩) hi.1 ?_
  unfold Sweep.Env.isHorizontal
  rw [decide_eq_false_iff_not]
  exact hi.2.ne

theorem env_planar (h : Arena s tags) (he : 0 < cfg.eps) (hsolve : Geom.FindsRoots cfg.solve) (hN : NoCross s) (hR : Resolved cfg s) :
    (env cfg s).Planar := by
  have on : ∀ {a t}, (env cfg s).On t a → Slanted s a ∧ (segAt s a).Down ∧ (segAt s a).start.y ≤ t ∧ t ≤ (segAt s a).stop.y := by
    intro a t ha
    have := (tall_iff h a).1 ha.1
    exact ⟨this, this.down h, ha.2⟩
  have cmp : ∀ {a b t}, (env cfg s).On t a → (env cfg s).On t b → Compared (segAt s a) (segAt s b) ((env cfg s).cmp a b) := by
    intro a b t ha hb
    obtain ⟨_, a1, a2, a3⟩ := on ha
    obtain ⟨_, b1, b2, b3⟩ := on hb
    exact compare_spec hsolve (by linarith) (by linarith) he cfg.first (segAt s) a b a1 b1 ((max_le a2 b2).trans (le_min a3 b3))
  have hpiece : ∀ {a b t}, (env cfg s).On t a → (env cfg s).On t b → ∀ p ∈ ((env cfg s).cmp a b).iter,
      ((segAt s a).start.y ≤ p.lo ∧ p.lo ≤ (segAt s a).stop.y) ∧ ((segAt s b).start.y ≤ p.lo ∧ p.lo ≤ (segAt s b).stop.y) ∧ p.lo ≤ p.hi := by
    intro a b t ha hb p hp
    have hc := cmp ha hb
    have h1 := hc.wf.2.lo_le p hp
    have h2 := wf_hi_le hc.wf hc.stop p hp
    rw [hc.start] at h1
    have h3 := h1.2.trans h2
    exact ⟨⟨(le_max_left _ _).trans h1.1, h3.trans (min_le_left _ _)⟩, ⟨(le_max_right _ _).trans h1.1, h3.trans (min_le_right _ _)⟩, h1.2⟩
  constructor
  · intro a b ha hb hab
    exact hN a b ((tall_iff h a).1 ha) ((tall_iff h b).1 hb) hab
  · intro a b t ha hb
    exact ⟨(cmp ha hb).wf, (cmp ha hb).start, (cmp ha hb).stop⟩
  · intro a b t ha hb hlt
    exact (cmp ha hb).strict hlt
  · intro a b t ha hb p hp ho
    obtain ⟨h1, h2, h3⟩ := hpiece ha hb p hp
    exact ⟨p.lo, h1, h2, ((cmp ha hb).right p hp p.lo le_rfl h3).1 ho⟩
  · intro a b t ha hb p hp ho
    obtain ⟨h1, h2, h3⟩ := hpiece ha hb p hp
    exact ⟨p.lo, h2, h1, ((cmp ha hb).right p hp p.lo le_rfl h3).2 ho⟩
  · intro a b ha hb hab
    exact hR a b ((tall_iff h a).1 ha) ((tall_iff h b).1 hb) hab
  · intro a t ha
    obtain ⟨_, a1, a2, a3⟩ := on ha
    have := (Geom.C42_at_y _ a1 t a2 a3).2.1
    change (segAt s a).minX - cfg.eps < (segAt s a).atY t
    linarith
  · intro a t ha
    obtain ⟨_, a1, a2, a3⟩ := on ha
    have := (Geom.C42_at_y _ a1 t a2 a3).2.2
    change (segAt s a).atY t < (segAt s a).maxX + cfg.eps
    linarith
  · intro a ha
    exact (Geom.C42_ends _ (((tall_iff h a).1 ha).down h)).1
  · intro a b hab
    change a ≤ (a + b) / 2 ∧ (a + b) / 2 ≤ b
    constructor <;> linarith

/-- If no two segments cross and the comparisons tell them apart, the sweep line is always in order: at the current height, and exactly. -/
theorem planar_line (h : Arena s tags) (he : 0 < cfg.eps) (hpp : Searches cfg.pp) (hsolve : Geom.FindsRoots cfg.solve) (hN : NoCross s)
    (hR : Resolved cfg s) {fuel : Nat} {st : Sweep.State ℝ} (hr : Sweep.Reached (env cfg s) fuel st) :
    (st.line.map Sweep.Entry.seg).Pairwise fun a b => (segAt s a).atY st.y ≤ (segAt s b).atY st.y := by
  have hg := (Sweep.Reached.good (env_sched h) (env_pp hpp) (env_planar h he hsolve hN hR) hr).1
  refine hg.imp_of_mem ?_
  intro a b ha hb hab
  obtain ⟨_, _, a1, a2⟩ := on_line h hpp hr ha
  obtain ⟨_, _, b1, b2⟩ := on_line h hpp hr hb
  by_contra hlt
  exact hab ⟨st.y, ⟨b1, b2⟩, ⟨a1, a2⟩, not_le.1 hlt⟩

theorem planar_order (h : Arena s tags) (he : 0 < cfg.eps) (hpp : Searches cfg.pp) (hsolve : Geom.FindsRoots cfg.solve) (hN : NoCross s)
    (hR : Resolved cfg s) (fuel : Nat) : LineOrder cfg s fuel := by
  intro st hr _
  refine (planar_line h he hpp hsolve hN hR hr).imp_of_mem ?_
  intro a b ha hb hab
  obtain ⟨_, _, a1, a2⟩ := on_line h hpp hr ha
  obtain ⟨_, _, b1, b2⟩ := on_line h hpp hr hb
  exact ⟨⟨st.y, by simpa using he.le, b1, b2, by linarith⟩, st.y, by simpa using he.le, a1, a2, by linarith⟩

end Verif.Full
