import Verif.Full.CurveAccuracy
import Verif.Full.Layout
import Verif.Full.Symmetric
import Verif.Pos.Deviation

/-!
# How far the layout of curves in general position is from the input (C90)

The groups of neighbours that the layout treats together (C73) consist of segments that are near each other, so that C88 applies.
-/

namespace Verif.Full
open Verif.Segs (Segments PathEl)
open Verif.Curve Verif.BinOp
set_option linter.unusedSectionVars false

variable {T W : Type} [AddCommGroup W] [DecidableEq W] {cfg : Cfg} {s : Segments ℝ} {tags : List T} {ρ : Nat → ℝ} {single : T → Bool → W} {fuel2 fuel : Nat}
  {t t' : Topo.Topo ℝ W}

/-! ## Specification -/

/-- What the bound depends on. `μ`: no segment moves to the side by more than `μ` times the height. `σ`: the same for curves. `W`: segments that are connected
at a height by a chain of segments near each other are at most `W` apart there. `H`: a curve and another segment are near each other for at most the height `H` at a time. -/
structure Mild (eps : ℝ) (ρ : Nat → ℝ) (s : Segments ℝ) (μ σ W H : ℝ) : Prop where
  width : 0 ≤ W
  high : 0 ≤ H
  mu : 0 ≤ μ
  sigma : 0 ≤ σ ∧ σ ≤ 1
  steep : ∀ i, Slanted s i → (segAt s i).toCubic.Steep μ
  curve : ∀ i, Slanted s i → Line (segAt s i) ∨ (segAt s i).toCubic.Steep σ
  chain : ∀ t i j, Has s t i → Has s t j → NearChain eps ρ s t i j → |(segAt s i).atY t - (segAt s j).atY t| ≤ W
  short : ∀ i j u v, i ≠ j → ¬ Line (segAt s i) → u ≤ v → (∀ t, u ≤ t → t ≤ v → Has s t i ∧ Has s t j ∧ Near eps (ρ i + ρ j) t (segAt s i) (segAt s j)) → v ≤ u + H

/-- How far the returned paths can be from the input. -/
noncomputable def driftOf (eps μ σ W H : ℝ) : ℝ := 3 * (1 + μ) * eps + 2 * W + 2 * ((1 + 5 * σ) * eps + σ * H)

/-- Every point of the path of every output segment that is not horizontal is between the heights of its ends, and horizontally within `κ` of the input segment
that it comes from. -/
def Follows (κ : ℝ) (s : Segments ℝ) (t : Topo.Topo ℝ W) (pos : Nat → Pos.OPath) : Prop :=
  ∀ i < t.n, (Path.pt t ⟨i, true⟩).y < (Path.pt t ⟨i, false⟩).y → Slanted s (t.origSeg i) ∧
    (segAt s (t.origSeg i)).start.y ≤ (Path.pt t ⟨i, true⟩).y ∧ (Path.pt t ⟨i, false⟩).y ≤ (segAt s (t.origSeg i)).stop.y ∧
    ∀ P ∈ Pos.trace (pos i).start (pos i).els, ((Path.pt t ⟨i, true⟩).y ≤ P.y ∧ P.y ≤ (Path.pt t ⟨i, false⟩).y) ∧ |P.x - (segAt s (t.origSeg i)).atY P.y| ≤ κ

/-! ## Groups -/

/-- The order of the sweep line at a height is not contradicted by the comparisons. -/
theorem line_order (h : Arena s tags) (he : 0 < cfg.eps) (hpp : Searches cfg.pp) (hsolve : Geom.FindsRoots cfg.solve) (hf : OneFirst cfg.first)
    (hG : General cfg s) {fuel : Nat} {st : Sweep.State ℝ} {z : ℝ} (hr : Sweep.Reached (env cfg s) fuel st) (hyz : st.y ≤ z)
    (hlast : Sweep.LastBefore (env cfg s) fuel z st) {a b : Nat} (hab : [a, b].Sublist (Sweep.newSegs st.line)) : ¬ (env cfg s).Sure z b a := by
  have hP := env_generic (cfg := cfg) h he hsolve hf hG
  obtain ⟨hRest, hLine⟩ := Sweep.Reached.generic hP (env_sched h) (env_pp hpp) hr
  have hb := (Sweep.Reached.spec (env_sched h) (env_pp hpp) hr).1
  rcases hyz.eq_or_lt with hy | hy
  · have ho : ((st.line.map Sweep.Entry.seg)).Pairwise fun a b => (env cfg s).InOrder st.y a b := List.pairwise_map.2 hLine.order
    have := (ho.sublist (Sweep.newSegs_sublist _)).sublist hab
    simp only [List.pairwise_cons, List.mem_singleton, forall_eq] at this
    rw [← hy]; exact this.1.1
  · rcases hlast with h0 | ⟨s', h1, h2⟩
    · rw [(Sweep.nextLine_none (env_sched h) hb h0).1] at hab
      simp at hab
    · obtain ⟨_, _, _, hn⟩ := Sweep.nextLine_parts (env_sched h) (env_pp hpp) hb h1
      exact hRest.between hP (env_sched h) hb hn hab (by exact_mod_cast hy) h2

/-- What is alive is a part of a slanted segment. -/
theorem alive_has (ha : Arena s tags) (hV : (env cfg s).Valid (contribution single tags) fuel2) (h : sweep cfg single s tags fuel2 fuel = some t) (again : Nat → Nat → Bool)
    (m : Scan.Maps ℝ) {k : Nat} (hk : k < t.n) (hlt : ((layoutInput cfg again s t m).first k).y < ((layoutInput cfg again s t m).second k).y) :
    Slanted s (t.origSeg k) ∧ (segAt s (t.origSeg k)).Down ∧ (segAt s (t.origSeg k)).start.y ≤ ((layoutInput cfg again s t m).first k).y ∧
      ((layoutInput cfg again s t m).second k).y ≤ (segAt s (t.origSeg k)).stop.y := by
  obtain ⟨p, q, hr⟩ := runs_of_sweep hV h hk
  obtain ⟨e1, e2⟩ := pt_of_runs hr
  have e1' : (layoutInput cfg again s t m).first k = ⟨p.1, p.2⟩ := e1
  have e2' : (layoutInput cfg again s t m).second k = ⟨q.1, q.2⟩ := e2
  rw [e1', e2'] at hlt ⊢
  obtain ⟨r1, r2, r3⟩ := runs_within hV h hk hr
  have hm := (Sweep.C61_rings hV h).1 k hk
  have hs : Slanted s (t.origSeg k) := ⟨(mem_segs (cfg := cfg) ha _).1 hm, lt_of_le_of_lt r1 (lt_of_lt_of_le hlt r2)⟩
  exact ⟨hs, hs.down ha, r1, r2⟩

/-- Two neighbours that the layout does not separate are near each other. -/
theorem next_near (ha : Arena s tags) (he : 0 < cfg.eps) (hpp : Searches cfg.pp) (hsolve : Geom.FindsRoots cfg.solve) (hf : OneFirst cfg.first)
    (hL : LooseCurves cfg.eps ρ s) (hn : ∀ t b, single t (!b) = - single t b) (h : sweep cfg single s tags fuel2 fuel = some t) (again : Nat → Nat → Bool) :
    ∃ m, Scan.buildScanLineOrders t = some m ∧ (layoutInput cfg again s t m).Ok ∧
      ∀ y0 y1 i j, Pos.Alive (layoutInput cfg again s t m) i y0 → Scan.neighborAfter (m.east i) y0 = some j →
        Pos.Tied y0 y1 ((layoutInput cfg again s t m).cmp (t.origSeg i) (t.origSeg j)) → y1 ≤ ((layoutInput cfg again s t m).second i).y →
        y1 ≤ ((layoutInput cfg again s t m).second j).y → Pos.Alive (layoutInput cfg again s t m) j y0 → ∀ y, y0 ≤ y → y ≤ y1 →
        Has s y (t.origSeg i) ∧ Has s y (t.origSeg j) ∧ t.origSeg i ≠ t.origSeg j ∧
          Near cfg.eps (ρ (t.origSeg i) + ρ (t.origSeg j)) y (segAt s (t.origSeg i)) (segAt s (t.origSeg j)) := by
  have hG := general_of_curves ha he hsolve hf hL
  have hV := env_valid ha he hpp single hn (general_order ha he hpp hsolve hf hG fuel2)
  obtain ⟨m, hm, ok⟩ := layout_ok ha he hsolve hV h again
  obtain ⟨m', hm', H⟩ := Sweep.across hV h
  obtain rfl : m' = m := by
    have e : Scan.buildScanLineOrders t = some m' := hm'
    rw [hm] at e; simpa using e.symm
  refine ⟨m', hm, ok, ?_⟩
  intro y0 y1 i j hi hij htied hi1 hj1 hj y hy0 hy1
  obtain ⟨st, L, g1, g2, g3, g4, g5, g6, g7, g8, -⟩ := H y0
  obtain ⟨si, di, i1, i2⟩ := alive_has ha hV h again m' hi.1 (lt_of_le_of_lt hi.2.1 hi.2.2)
  obtain ⟨sj, dj, j1, j2⟩ := alive_has ha hV h again m' hj.1 (lt_of_le_of_lt hj.2.1 hj.2.2)
  obtain ⟨a, ea⟩ : ∃ a, a = t.origSeg i := ⟨_, rfl⟩
  obtain ⟨b, eb⟩ : ∃ b, b = t.origSeg j := ⟨_, rfl⟩
  rw [← ea] at si di i1 i2 htied ⊢
  rw [← eb] at sj dj j1 j2 htied ⊢
  have hiL : i ∈ L := (g4 i).2 ((alive_layout again m' hV h i y0).1 hi)
  obtain ⟨l1, l2, eL⟩ := List.append_of_mem hiL
  have hl2 := (g5 l1 i l2 eL).2
  rw [hij] at hl2
  obtain ⟨l2', rfl⟩ : ∃ l', l2 = j :: l' := by
    cases l2 with
    | nil => simp at hl2
    | cons c l' =>
      simp only [List.head?_cons, Option.some.injEq] at hl2
      exact ⟨l', by rw [hl2]⟩
  have hsub : [a, b].Sublist (Sweep.newSegs st.line) := by
    rw [← g6, eL, List.map_append, List.map_cons, List.map_cons, ea, eb]
    exact List.Sublist.trans (List.Sublist.cons_cons _ (List.Sublist.cons_cons _ (List.nil_sublist _))) (List.sublist_append_right _ _)
  have hne : a ≠ b := by
    rintro rfl
    have := (g6 ▸ g7).sublist hsub
    simp at this
  have hya : Has s y a := ⟨si, by linarith [hi.2.1], by linarith⟩
  have hyb : Has s y b := ⟨sj, by linarith [hj.2.1], by linarith⟩
  refine ⟨hya, hyb, hne, ?_⟩
  -- the comparison
  have hsym := C89_compare hsolve he (by linarith : 0 < cfg.eps / 2) cfg.eps di dj (hL.upright a b si sj) cfg.first again
  obtain ⟨p, hp, hpo, hph⟩ := htied
  have hcmp : (layoutInput cfg again s t m').cmp a b = (env cfg s).cmp a b := hsym.1.symm
  rw [hcmp] at hp
  have hc : Compared (segAt s a) (segAt s b) ((env cfg s).cmp a b) :=
    compare_spec hsolve (by linarith : 0 < cfg.eps / 2) (by linarith : cfg.eps / 2 ≤ cfg.eps) he cfg.first (segAt s) a b di dj
      ((max_le hya.2.1 hyb.2.1).trans (le_min hya.2.2 hyb.2.2))
  obtain ⟨pm, plo, phi⟩ := (find_lt_iff hc.wf.2 (by rw [hc.start]; exact max_le (by linarith [hi.2.1]) (by linarith [hj.2.1])) p).1 hp
  have hright : p.order ≠ .right := by
    intro hr
    have hreach : Sweep.Reached (env cfg s) fuel2 st ∧ st.y ≤ y0 := by
      rcases g1 with rfl | g1
      · have : [a, b].Sublist ([] : List Nat) := hsub
        simp at this
      · exact g1
    obtain ⟨z, z0, z1, z2, z3⟩ : ∃ z, y0 < z ∧ z < p.hi ∧ z ≤ min (((layoutInput cfg again s t m').second i).y) (((layoutInput cfg again s t m').second j).y) ∧
        Sweep.LastBefore (env cfg s) fuel2 z st := by
      have hmin : y0 < min p.hi (min (((layoutInput cfg again s t m').second i).y) (((layoutInput cfg again s t m').second j).y)) :=
        lt_min phi (lt_min hi.2.2 hj.2.2)
      rcases g2 with g2 | ⟨s', g2, g2'⟩
      · obtain ⟨z, k1, k2⟩ := exists_between hmin
        exact ⟨z, k1, k2.trans_le (min_le_left _ _), k2.le.trans (min_le_right _ _), .inl g2⟩
      · obtain ⟨z, k1, k2⟩ := exists_between (lt_min hmin g2')
        have k3 := k2.trans_le (min_le_left _ _)
        exact ⟨z, k1, k3.trans_le (min_le_left _ _), k3.le.trans (min_le_right _ _), .inr ⟨s', g2, k2.trans_le (min_le_right _ _)⟩⟩
    refine line_order ha he hpp hsolve hf hG hreach.1 (hreach.2.trans z0.le) z3 hsub ?_
    rw [sure_iff ha]
    refine ⟨⟨sj, by linarith [hj.2.1], (z2.trans (min_le_right _ _)).trans j2⟩, ⟨si, by linarith [hi.2.1], (z2.trans (min_le_left _ _)).trans i2⟩, ?_⟩
    intro q hq q1 q2
    rw [compare_flip hf hne, Sweep.iter_flip] at hq
    obtain ⟨r, hr', rfl⟩ := List.mem_map.1 hq
    dsimp only at q1 q2 ⊢
    have : r = p := by
      obtain ⟨as, bs, e⟩ := List.append_of_mem pm
      have hsp := hc.wf.2
      rw [e] at hsp
      obtain ⟨k1, -, -, k2⟩ := hsp.split
      rw [e] at hr'
      simp only [List.mem_append, List.mem_cons] at hr'
      rcases hr' with k | k | k
      · have := (k1 r k).2.2; linarith
      · exact k
      · have := (k2 r k).1; linarith
    rw [this, hr]; rfl
  have hish : p.order = .ish := by
    cases ho : p.order with
    | ish => rfl
    | left => exact absurd ho hpo
    | right => exact absurd ho hright
  refine blurred_near ha he hsolve hf hL hne ⟨hya, hyb, fun k => ?_, fun k => ?_⟩
  · have := k p pm (by linarith) (by linarith)
    rw [hish] at this; cases this
  · have := k ⟨p.lo, p.hi, p.order.flip⟩ (by rw [compare_flip hf hne, Sweep.iter_flip]; exact List.mem_map.2 ⟨p, pm, rfl⟩) (by dsimp only; linarith) (by dsimp only; linarith)
    rw [hish] at this; cases this


theorem chain_and {α : Type} {P Q R : α → α → Prop} {l : List α} (hp : l.IsChain P) (hq : l.IsChain Q) (h : ∀ a ∈ l, ∀ b ∈ l, P a b → Q a b → R a b) : l.IsChain R := by
  induction l with
  | nil => exact .nil
  | cons a l ih =>
    cases l with
    | nil => exact .singleton _
    | cons b l =>
      rw [List.isChain_cons_cons] at hp hq ⊢
      exact ⟨h a (by simp) b (by simp) hp.1 hq.1, ih hp.2 hq.2 fun x hx y hy => h x (List.mem_cons_of_mem _ hx) y (List.mem_cons_of_mem _ hy)⟩

/-- A member of a chain with several members has a neighbour in it. -/
theorem chain_neighbor {α : Type} {R : α → α → Prop} {l : List α} (h : l.IsChain R) {a : α} (ha : a ∈ l) (hl : ∀ o, l ≠ [o]) : ∃ b ∈ l, R a b ∨ R b a := by
  induction l with
  | nil => simp at ha
  | cons c l ih =>
    cases l with
    | nil => exact absurd rfl (hl c)
    | cons d l =>
      rw [List.isChain_cons_cons] at h
      rcases List.mem_cons.1 ha with rfl | ha
      · exact ⟨d, by simp, .inl h.1⟩
      · cases l with
        | nil =>
          rw [List.mem_singleton] at ha
          subst ha
          exact ⟨c, by simp, .inr h.1⟩
        | cons e l =>
          obtain ⟨b, hb, h'⟩ := ih h.2 ha (by simp)
          exact ⟨b, List.mem_cons_of_mem _ hb, h'⟩

theorem isLine_iff_line {g : Geom.Seg} (hd : g.Down) : Pos.isLine g = true ↔ Line g := by
  cases g with
  | line p q => exact ⟨fun _ => ⟨p, q, rfl, hd⟩, fun _ => rfl⟩
  | cubic c => 
    constructor
    · intro h; simp [Pos.isLine] at h
    · rintro ⟨p, q, h, -⟩; cases h

/-- Near an end: from a point of the segment within `eps` to the point at the same height. -/
theorem same_height {g : Geom.Seg} (hd : g.Down) {μ eps x y : ℝ} (hμ : 0 ≤ μ) (hs : g.toCubic.Steep μ) (h0 : g.start.y ≤ y) (h1 : y ≤ g.stop.y)
    (h : ∃ r, g.On r ∧ |x - r.x| ≤ eps ∧ |y - r.y| ≤ eps) : |x - Geom.solveX g.toCubic y| ≤ (1 + μ) * eps := by
  obtain ⟨r, hr, hx, hy⟩ := h
  have ry := g.on_y hd r hr
  have rx := (g.on_iff hd r.y r.x ry.1 ry.2).1 hr
  rw [← atY_solveX hd h0 h1]
  have hm : |g.atY y - g.atY r.y| ≤ μ * |y - r.y| := by
    rcases le_total r.y y with h | h
    · rw [abs_of_nonneg (by linarith : 0 ≤ y - r.y)]
      exact atY_steep hd hs ry.1 h h1
    · rw [abs_sub_comm, abs_sub_comm y, abs_of_nonneg (by linarith : 0 ≤ r.y - y)]
      exact atY_steep hd hs h0 h ry.2
  have hm' : μ * |y - r.y| ≤ μ * eps := mul_le_mul_of_nonneg_left hy hμ
  rw [← rx] at hm
  rw [abs_le] at hm hx ⊢
  constructor <;> linarith [hm.1, hm.2, hx.1, hx.2]

/-- The groups of the layout satisfy the requirements of C88. -/
theorem layout_within (ha : Arena s tags) (he : 0 < cfg.eps) (hpp : Searches cfg.pp) (hsolve : Geom.FindsRoots cfg.solve) (hf : OneFirst cfg.first)
    (hL : LooseCurves cfg.eps ρ s) (hn : ∀ t b, single t (!b) = - single t b) (h : sweep cfg single s tags fuel2 fuel = some t) (again : Nat → Nat → Bool)
    {μ σ Wd H : ℝ} (hM : Mild cfg.eps ρ s μ σ Wd H)
    (hacc : ∀ i < t.n, ∀ p q, Topo.Runs t i p q →
      (∃ r, (segAt s (t.origSeg i)).On r ∧ |p.1 - r.x| ≤ cfg.eps ∧ |p.2 - r.y| ≤ cfg.eps) ∧ (∃ r, (segAt s (t.origSeg i)).On r ∧ |q.1 - r.x| ≤ cfg.eps ∧ |q.2 - r.y| ≤ cfg.eps)) :
    ∃ m, Scan.buildScanLineOrders t = some m ∧ (layoutInput cfg again s t m).Ok ∧ Pos.Within (layoutInput cfg again s t m) ((1 + μ) * cfg.eps) Wd H σ := by
  obtain ⟨m, hm, ok, hnear⟩ := next_near ha he hpp hsolve hf hL hn h again
  refine ⟨m, hm, ok, ?_⟩
  have hG := general_of_curves ha he hsolve hf hL
  have hV := env_valid ha he hpp single hn (general_order ha he hpp hsolve hf hG fuel2)
  have hal : ∀ k, k < t.n → ((layoutInput cfg again s t m).first k).y < ((layoutInput cfg again s t m).second k).y → _ := fun k hk hlt => alive_has ha hV h again m hk hlt
  have hcub := fun g : Geom.Seg => (Geom.C42_to_cubic g).2
  -- a chain at a height
  have hgr : ∀ y0 y1 nbrs, Pos.Group (layoutInput cfg again s t m) y0 y1 nbrs → nbrs.IsChain fun a b => ∀ y, y0 ≤ y → y ≤ y1 →
      Has s y (t.origSeg a) ∧ Has s y (t.origSeg b) ∧ t.origSeg a ≠ t.origSeg b ∧
        Near cfg.eps (ρ (t.origSeg a) + ρ (t.origSeg b)) y (segAt s (t.origSeg a)) (segAt s (t.origSeg b)) := by
    intro y0 y1 nbrs hg
    exact chain_and hg.tied hg.next fun a ma b mb h1 h2 y hy0 hy1 => hnear y0 y1 a b (hg.alive a ma) h2 h1 (hg.le a ma) (hg.le b mb) (hg.alive b mb) y hy0 hy1
  have hhas : ∀ y0 y1 nbrs, Pos.Group (layoutInput cfg again s t m) y0 y1 nbrs → ∀ a ∈ nbrs, ∀ y, y0 ≤ y → y ≤ y1 → Has s y (t.origSeg a) := by
    intro y0 y1 nbrs hg a ma y hy0 hy1
    have al := hg.alive a ma
    obtain ⟨g1, g2, g3, g4⟩ := hal a al.1 (lt_of_le_of_lt al.2.1 al.2.2)
    exact ⟨g1, g3.trans (al.2.1.trans hy0), hy1.trans ((hg.le a ma).trans g4)⟩
  have hx : ∀ a y, Has s y (t.origSeg a) → (layoutInput cfg again s t m).x a y = (segAt s (t.origSeg a)).atY y :=
    fun a y hy => (atY_solveX (hy.1.down ha) hy.2.1 hy.2.2).symm
  refine ⟨hsolve, mul_nonneg (by linarith [hM.mu]) he.le, hM.width, hM.high, hM.sigma, ?_, ?_, ?_, ?_, ?_, ?_⟩
  · intro o ho hlt
    obtain ⟨g1, g2, g3, g4⟩ := hal o ho hlt
    refine ⟨toCubic_mono g2, ⟨?_, hlt.le, ?_⟩⟩
    · rw [(hcub _).1]; exact g3
    · rw [(hcub _).2]; exact g4
  · intro o ho hlt
    obtain ⟨g1, g2, g3, g4⟩ := hal o ho hlt
    exact (hM.curve _ g1).imp (isLine_iff_line g2).2 id
  · intro o ho hlt
    obtain ⟨g1, g2, g3, g4⟩ := hal o ho hlt
    obtain ⟨p, q, hr⟩ := runs_of_sweep hV h ho
    obtain ⟨e1, e2⟩ := pt_of_runs hr
    have := (hacc o ho p q hr).1
    refine same_height g2 hM.mu (hM.steep _ g1) g3 (hlt.le.trans g4) ?_
    change ∃ r, (segAt s (t.origSeg o)).On r ∧ |(Path.pt t ⟨o, true⟩).x - r.x| ≤ cfg.eps ∧ |(Path.pt t ⟨o, true⟩).y - r.y| ≤ cfg.eps
    rw [e1]; exact this
  · intro o ho hlt
    obtain ⟨g1, g2, g3, g4⟩ := hal o ho hlt
    obtain ⟨p, q, hr⟩ := runs_of_sweep hV h ho
    obtain ⟨e1, e2⟩ := pt_of_runs hr
    have := (hacc o ho p q hr).2
    refine same_height g2 hM.mu (hM.steep _ g1) (g3.trans hlt.le) g4 ?_
    change ∃ r, (segAt s (t.origSeg o)).On r ∧ |(Path.pt t ⟨o, false⟩).x - r.x| ≤ cfg.eps ∧ |(Path.pt t ⟨o, false⟩).y - r.y| ≤ cfg.eps
    rw [e2]; exact this
  · intro y0 y1 nbrs hg a ma b mb y hy0 hy1
    have h1 := hhas y0 y1 nbrs hg a ma y hy0 hy1
    have h2 := hhas y0 y1 nbrs hg b mb y hy0 hy1
    rw [hx a y h1, hx b y h2]
    refine hM.chain y _ _ h1 h2 ?_
    have hc : nbrs.IsChain fun a b => NearChain cfg.eps ρ s y (t.origSeg a) (t.origSeg b) :=
      (hgr y0 y1 nbrs hg).imp fun a b hab => by
        obtain ⟨k1, k2, -, k3⟩ := hab y hy0 hy1
        exact .single ⟨k1, k2, k3⟩
    have : Trans (fun a b => NearChain cfg.eps ρ s y (t.origSeg a) (t.origSeg b)) (fun a b => NearChain cfg.eps ρ s y (t.origSeg a) (t.origSeg b))
      (fun a b => NearChain cfg.eps ρ s y (t.origSeg a) (t.origSeg b)) := ⟨fun h1 h2 => Relation.ReflTransGen.trans h1 h2⟩
    have : Std.Symm (fun a b => NearChain cfg.eps ρ s y (t.origSeg a) (t.origSeg b)) := ⟨fun _ _ h => NearChain.symm h⟩
    exact (List.isChain_iff_pairwise.1 hc).forall_of_forall (R := fun a b => NearChain cfg.eps ρ s y (t.origSeg a) (t.origSeg b)) (fun _ _ => Relation.ReflTransGen.refl) ma mb
  · rintro y0 y1 nbrs hg hl ⟨o, mo, ho⟩
    have hline : ¬ Line (segAt s (t.origSeg o)) := by
      intro h'
      have := (isLine_iff_line ((hhas y0 y1 nbrs hg o mo y0 le_rfl hg.lt.le).1.down ha)).2 h'
      have e : Pos.isLine (segAt s (t.origSeg o)) = false := ho
      rw [e] at this; cases this
    obtain ⟨b, mb, hb | hb⟩ := chain_neighbor (hgr y0 y1 nbrs hg) mo hl
    · refine hM.short _ _ y0 y1 (hb y0 le_rfl hg.lt.le).2.2.1 hline hg.lt.le fun y h0 h1 => ?_
      obtain ⟨k1, k2, -, k3⟩ := hb y h0 h1
      exact ⟨k1, k2, k3⟩
    · refine hM.short _ _ y0 y1 (hb y0 le_rfl hg.lt.le).2.2.1.symm hline hg.lt.le fun y h0 h1 => ?_
      obtain ⟨k1, k2, -, k3⟩ := hb y h0 h1
      exact ⟨k2, k1, by rw [add_comm]; exact k3.symm⟩

/-! ## The layout -/

/-- A horizontal output segment becomes a line. -/
theorem history_flat {I : Pos.Input} {hist : List Pos.Step} {out : Nat → Pos.OPath} (h : Pos.History I hist out) {o : Nat} (ho : (I.first o).y = (I.second o).y) :
    out o = ⟨I.first o, [.line (I.second o)], some 0⟩ := by
  induction h with
  | nil => rw [Pos.initPath, if_pos ho]
  | snoc hist out st out' _ hg he ih =>
    have hno : o ∉ st.nbrs := fun hm => by
      have := hg.alive o hm
      linarith [this.2.1, this.2.2]
    cases he with
    | nothing => exact ih
    | strips _ _ ss _ _ _ hh => rw [hh o, if_neg hno]; exact ih

theorem layout_all {I : Pos.Input} (ok : I.Ok) {δ Wd H σ : ℝ} (hI : Pos.Within I δ Wd H σ) :
    ∃ N out, (∀ n ≥ N, Pos.computePositions I n = some out) ∧
      (∀ o < I.n, (I.first o).y < (I.second o).y → ∀ P ∈ Pos.trace (out o).start (out o).els,
        ((I.first o).y ≤ P.y ∧ P.y ≤ (I.second o).y) ∧ |P.x - I.x o P.y| ≤ 3 * δ + 2 * Wd + 2 * Pos.bendOf I H σ) ∧
      (∀ o < I.n, (out o).start = I.first o ∧ (out o).stop = I.second o ∧ (out o).els ≠ []) ∧
      ∀ o < I.n, (I.first o).y = (I.second o).y → (out o).els = [.line (I.second o)] := by
  obtain ⟨N, out, a1, a2⟩ := Pos.C88_deviation ok hI
  obtain ⟨N', out', b1, b2⟩ := Pos.C39_layout ok
  obtain ⟨N'', out'', hist, paths, c1, c2, c3, -⟩ := Pos.C73_groups ok
  have e1 : out' = out := by
    have x := a1 (max N N') (le_max_left _ _)
    have y := b1 (max N N') (le_max_right _ _)
    rw [x] at y; simpa using y.symm
  have e2 : out'' = out := by
    have x := a1 (max N N'') (le_max_left _ _)
    have y := c1 (max N N'') (le_max_right _ _)
    rw [x] at y; simpa using y.symm
  subst e1; subst e2
  refine ⟨N, _, a1, a2, fun o ho => ⟨(b2 o ho).1, (b2 o ho).2.1, (b2 o ho).2.2.1⟩, fun o ho h => ?_⟩
  rw [c3 o, history_flat c2 h, Pos.finish, if_neg (by simp [Pos.OPath.stop, Pos.El.stop])]
  rfl

section
variable {rule : FillRule} {op : Op} {cs : List Contours.Contour} {t' : Topo.Topo ℝ BinaryWinding} {s' : Segments ℝ}

/-- The layout for any winding number. -/
theorem layout_any {T W : Type} [AddCommGroup W] [DecidableEq W] {single : T → Bool → W} {tags : List T} {s : Segments ℝ} {fuel2 : Nat} {t t' : Topo.Topo ℝ W}
    (ha : Arena s tags) (he : 0 < cfg.eps) (hpp : Searches cfg.pp) (hsolve : Geom.FindsRoots cfg.solve) (hf : OneFirst cfg.first)
    (hn : ∀ t b, single t (!b) = - single t b) (hV : (env cfg s).Valid (contribution single tags) fuel2) (h1 : sweep cfg single s tags fuel2 fuel = some t)
    (h2 : Merge.mergeCoincident (close cfg.eps s) t = some t') (hacc : Accurate cfg.eps s t') (hL : LooseCurves cfg.eps ρ s) {μ σ Wd H : ℝ}
    (hM : Mild cfg.eps ρ s μ σ Wd H) (again : Nat → Nat → Bool) :
    ∃ N pos, (∀ n ≥ N, layout cfg again s t' n = some pos) ∧
      (∀ i < t'.n, (pos i).start = Path.pt t' ⟨i, true⟩ ∧ (pos i).stop = Path.pt t' ⟨i, false⟩ ∧ (pos i).els ≠ []) ∧
      (∀ i < t'.n, (Path.pt t' ⟨i, true⟩).y = (Path.pt t' ⟨i, false⟩).y → (pos i).els = [.line (Path.pt t' ⟨i, false⟩)]) ∧
      Follows (driftOf cfg.eps μ σ Wd H) s t' pos := by
  obtain ⟨t1, hm1, e1, e2, e3, e4, -⟩ := Sweep.C61_merge hV h1 (close cfg.eps s)
  obtain rfl : t1 = t' := by rw [h2] at hm1; simpa using hm1.symm
  obtain ⟨Hd, hr, _⟩ := Sweep.driver_run hV h1
  obtain ⟨m, hm, ok, hW⟩ := layout_within ha he hpp hsolve hf hL hn h1 again hM (by
    intro i hi p q hpq
    obtain ⟨-, k⟩ := hacc i (by rw [e1]; exact hi) p q (by unfold Topo.Runs at hpq ⊢; rw [e2, e3]; exact hpq)
    rw [e4] at k; exact k)
  have hm' : Scan.buildScanLineOrders t1 = some m := by rw [Scan.C57_merged hV.neg hr _ h2, hm]
  have hal : ∀ k, k < t.n → ((layoutInput cfg again s t m).first k).y < ((layoutInput cfg again s t m).second k).y → _ := fun k hk hlt => alive_has ha hV h1 again m hk hlt
  obtain ⟨N, out, k1, k2, k3, k4⟩ := layout_all ok hW
  have hp : ∀ x, Path.pt t1 x = Path.pt t x := by intro x; unfold Path.pt; rw [e3, e2]
  refine ⟨N, out, ?_, ?_, ?_, ?_⟩
  · intro n hn
    unfold layout
    rw [hm']
    dsimp only
    rw [layoutInput_merged hV h1 h2 again m]
    exact k1 n hn
  · intro i hi
    rw [hp, hp]
    exact k3 i (by rw [e1] at hi; exact hi)
  · intro i hi heq
    rw [hp, hp] at heq
    rw [hp]
    exact k4 i (by rw [e1] at hi; exact hi) heq
  · intro i hi hlt
    rw [e1] at hi
    rw [hp, hp] at hlt ⊢
    rw [e4]
    obtain ⟨g1, g2, g3, g4⟩ := hal i hi hlt
    refine ⟨g1, g3, g4, fun P hP => ?_⟩
    obtain ⟨q1, q2⟩ := k2 i hi hlt P hP
    refine ⟨q1, ?_⟩
    rw [atY_solveX g2 (g3.trans q1.1) (q1.2.trans g4)]
    refine le_of_le_of_eq q2 ?_
    unfold driftOf Pos.bendOf
    change 3 * ((1 + μ) * cfg.eps) + 2 * Wd + 2 * ((4 + 20 * σ) * (cfg.eps / 4) + σ * H) = _
    ring

/-- **C90**, the layout: the path of every output segment begins and ends at its ends; that of a horizontal one is a line, and all points of the others are
horizontally within `driftOf` of the input segment that it comes from. -/
theorem C90_layout {a b : List (PathEl ℝ)} (he : 0 < cfg.eps) (hpp : Searches cfg.pp) (hsolve : Geom.FindsRoots cfg.solve) (hf : OneFirst cfg.first)
    (h : binaryOp cfg a b rule op fuel = .ok s' t' cs) (hL : LooseCurves cfg.eps ρ s') (hT : Tight cfg.eps ρ s') (hB : Beyond cfg s') {μ σ Wd H : ℝ}
    (hM : Mild cfg.eps ρ s' μ σ Wd H) (again : Nat → Nat → Bool) :
    ∃ N pos, (∀ n ≥ N, layout cfg again s' t' n = some pos) ∧
      (∀ i < t'.n, (pos i).start = Path.pt t' ⟨i, true⟩ ∧ (pos i).stop = Path.pt t' ⟨i, false⟩ ∧ (pos i).els ≠ []) ∧
      (∀ i < t'.n, (Path.pt t' ⟨i, true⟩).y = (Path.pt t' ⟨i, false⟩).y → (pos i).els = [.line (Path.pt t' ⟨i, false⟩)]) ∧
      Follows (driftOf cfg.eps μ σ Wd H) s' t' pos := by
  have hacc := C84_curves he hpp hsolve hf h hL hT hB
  obtain ⟨s, tags, hb, h0⟩ := binaryOp_ok h
  obtain ⟨rfl, t, h1, h2, -⟩ := finish_ok h0
  have ha := buildPaths_arena hb
  have hG := general_of_curves ha he hsolve hf hL
  have hV := env_valid ha he hpp _ BinaryWinding.single_neg (general_order ha he hpp hsolve hf hG fuel)
  exact layout_any ha he hpp hsolve hf BinaryWinding.single_neg hV h1 h2 hacc hL hM again

end

end Verif.Full
