import Verif.Full.Meet

/-!
# Inputs that cross, in general position

Two segments are calm if they do not cross, and the comparison tells which one is to the left as soon as both have started; segments that have an end in
common, that touch, or that coincide may be calm. Two segments that are not calm must be alone where they meet, and must be told apart at the heights
at which a segment starts or ends, unless they have that end in common. The sweep line is then in order wherever it matters, the operation returns, and
what it returns is right.
-/

namespace Verif.Full
open Verif.Segs (Segments PathEl)
open Verif.Curve Verif.BinOp
set_option linter.unusedSectionVars false

/-- The segments have an end in common at the height `t`. -/
def Share (t : ℝ) (g h : Geom.Seg) : Prop :=
  (g.start.y = t ∧ (h.start = g.start ∨ h.stop = g.start)) ∨ (g.stop.y = t ∧ (h.start = g.stop ∨ h.stop = g.stop))

/-- The height `t` is in the range of the slanted segment `i`. -/
def Has (s : Segments ℝ) (t : ℝ) (i : Nat) : Prop := Slanted s i ∧ (segAt s i).start.y ≤ t ∧ t ≤ (segAt s i).stop.y

/-- The comparison with tolerance `eps` says that at the height `t` the segment `i` is to the left of the segment `j`. -/
def Told (cfg : Cfg) (s : Segments ℝ) (t : ℝ) (i j : Nat) : Prop := ∀ p ∈ ((env cfg s).cmp i j).iter, p.lo ≤ t → t ≤ p.hi → p.order = .left

/-- The comparison with tolerance `eps` does not tell the segments apart at the height `t`. -/
def Blurred (cfg : Cfg) (s : Segments ℝ) (t : ℝ) (i j : Nat) : Prop := Has s t i ∧ Has s t j ∧ ¬ Told cfg s t i j ∧ ¬ Told cfg s t j i

/-- Some segment starts or ends at the height `t`. -/
def Vertex (s : Segments ℝ) (t : ℝ) : Prop := ∃ i < s.len, (segAt s i).start.y = t ∨ (segAt s i).stop.y = t

/-- At the height `t` the comparisons leave open that `i` is to the left of `j`: there is a chain from `i` to `j` no segment of which is told to be to
the right of the next one. -/
def Open (cfg : Cfg) (s : Segments ℝ) (t : ℝ) : Nat → Nat → Prop := Relation.ReflTransGen fun i j => Has s t i ∧ Has s t j ∧ ¬ Told cfg s t j i

/-- At the height `t` the comparisons leave the order of `i` and `j` open. -/
def Cluster (cfg : Cfg) (s : Segments ℝ) (t : ℝ) (i j : Nat) : Prop := Open cfg s t i j ∧ Open cfg s t j i

/-- If `i` is to the left of `j` somewhere, it is nowhere to the right, and the comparison says so as soon as both have started. -/
def Parted (cfg : Cfg) (s : Segments ℝ) (i j : Nat) : Prop := LeftOf (segAt s i) (segAt s j) →
  ¬ LeftOf (segAt s j) (segAt s i) ∧ ((env cfg s).cmp i j).orderAfter (max (segAt s i).start.y (segAt s j).start.y) = some .left

/-- The segments do not cross, and if they differ the comparison tells which one is to the left. -/
def Calm (cfg : Cfg) (s : Segments ℝ) (i j : Nat) : Prop := Parted cfg s i j ∧ Parted cfg s j i

/-- Segments in general position. Nothing is asked of calm segments. -/
structure General (cfg : Cfg) (s : Segments ℝ) : Prop where
  alone : ∀ i j k t, i ≠ j → Has s t i → Has s t j → ¬ Calm cfg s i j → Cluster cfg s t i j → Cluster cfg s t i k → k = i ∨ k = j
  ends : ∀ i j t, i ≠ j → ¬ Calm cfg s i j → Vertex s t → Blurred cfg s t i j → Share t (segAt s i) (segAt s j)

/-- The two directions of a comparison agree (order.rs:57-72: the second is the flip of the first). -/
def OneFirst (first : Nat → Nat → Bool) : Prop := ∀ i j, i ≠ j → first i j = !first j i

variable {T W : Type} [AddCommGroup W] [DecidableEq W] {s : Segments ℝ} {tags : List T} {cfg : Cfg}

theorem on_iff (h : Arena s tags) {t : ℝ} {i : Nat} : (env cfg s).On t i ↔ Has s t i := by
  unfold Sweep.Env.On Has
  rw [tall_iff h]; rfl

theorem sure_iff (h : Arena s tags) {t : ℝ} {i j : Nat} : (env cfg s).Sure t i j ↔ Has s t i ∧ Has s t j ∧ Told cfg s t i j := by
  unfold Sweep.Env.Sure
  rw [on_iff h, on_iff h]; rfl

theorem blurred_of_near (h : Arena s tags) {t : ℝ} {i j : Nat} (hi : Has s t i) (hj : Has s t j) (hn : (env cfg s).Near t i j) : Blurred cfg s t i j := by
  obtain ⟨h1, h2⟩ := hn
  rw [sure_iff h] at h1 h2
  exact ⟨hi, hj, fun h3 => h1 ⟨hi, hj, h3⟩, fun h3 => h2 ⟨hj, hi, h3⟩⟩

theorem tame_iff {i j : Nat} : (env cfg s).Tame i j ↔ Calm cfg s i j := Iff.rfl

theorem may_iff (h : Arena s tags) {t : ℝ} {i j : Nat} : (env cfg s).May t i j ↔ Open cfg s t i j := by
  unfold Sweep.Env.May Open
  have : (fun a b => (env cfg s).On t a ∧ (env cfg s).On t b ∧ ¬ (env cfg s).Sure t b a) = fun i j => Has s t i ∧ Has s t j ∧ ¬ Told cfg s t j i := by
    funext a b
    rw [on_iff h, on_iff h, sure_iff h]
    exact propext ⟨fun ⟨h1, h2, h3⟩ => ⟨h1, h2, fun h4 => h3 ⟨h2, h1, h4⟩⟩, fun ⟨h1, h2, h3⟩ => ⟨h1, h2, fun h4 => h3 h4.2.2⟩⟩
  rw [this]

theorem linked_iff (h : Arena s tags) {t : ℝ} {i j : Nat} : (env cfg s).Linked t i j ↔ Cluster cfg s t i j := by
  unfold Sweep.Env.Linked Cluster
  rw [may_iff h, may_iff h]

theorem corner_iff (h : Arena s tags) {t : ℝ} : (env cfg s).Corner t ↔ Vertex s t := by
  unfold Sweep.Env.Corner Vertex
  simp only [mem_segs h]; rfl

theorem Share.atY {t : ℝ} {g h : Geom.Seg} (hs : Share t g h) (hg : g.Down) (hh : h.Down) : g.atY t = h.atY t := by
  obtain ⟨g1, g2⟩ := Geom.C42_ends g hg
  obtain ⟨h1, h2⟩ := Geom.C42_ends h hh
  rcases hs with ⟨rfl, e | e⟩ | ⟨rfl, e | e⟩
  · rw [g1, ← e, h1]
  · rw [g1, ← e, h2]
  · rw [g2, ← e, h1]
  · rw [g2, ← e, h2]

theorem compare_flip (hf : OneFirst cfg.first) {i j : Nat} (hne : i ≠ j) : (env cfg s).cmp j i = ((env cfg s).cmp i j).flip := by
  change compare cfg.solve cfg.eps (cfg.eps / 2) cfg.eps cfg.first (segAt s) j i = (compare cfg.solve cfg.eps (cfg.eps / 2) cfg.eps cfg.first (segAt s) i j).flip
  unfold compare
  rw [hf j i hne.symm]
  cases cfg.first i j <;> simp [C09_flip_flip]

theorem env_generic (h : Arena s tags) (he : 0 < cfg.eps) (hsolve : Geom.FindsRoots cfg.solve) (hf : OneFirst cfg.first) (hG : General cfg s) :
    (env cfg s).Generic := by
  have on : ∀ {a t}, (env cfg s).On t a → Slanted s a ∧ (segAt s a).Down ∧ (segAt s a).start.y ≤ t ∧ t ≤ (segAt s a).stop.y := by
    intro a t ha
    have := (tall_iff h a).1 ha.1
    exact ⟨this, this.down h, ha.2⟩
  have cons : ∀ {a b t}, (env cfg s).On t a → (env cfg s).On t b → Compared (segAt s a) (segAt s b) ((env cfg s).cons a b) := by
    intro a b t ha hb
    obtain ⟨_, a1, a2, a3⟩ := on ha
    obtain ⟨_, b1, b2, b3⟩ := on hb
    exact compare_spec hsolve (by linarith) (by linarith) (by linarith) cfg.firstCons (segAt s) a b a1 b1 ((max_le a2 b2).trans (le_min a3 b3))
  have box : ∀ {a t}, (env cfg s).On t a → (segAt s a).minX ≤ (segAt s a).atY t ∧ (segAt s a).atY t ≤ (segAt s a).maxX := by
    intro a t ha
    obtain ⟨_, a1, a2, a3⟩ := on ha
    exact (Geom.C42_at_y _ a1 t a2 a3).2
  have blur : ∀ {a b t}, (env cfg s).On t a → (env cfg s).On t b → (env cfg s).Near t a b → Blurred cfg s t a b :=
    fun ha hb hn => blurred_of_near h ((on_iff h).1 ha) ((on_iff h).1 hb) hn
  constructor
  · exact env_comparable h he hsolve
  · intro a b t _ _ hne
    exact compare_flip hf hne
  · intro a b t ha hb
    exact (cons ha hb).start.le
  · intro a b t ha hb p hp ho h1 h2
    exact ((cons ha hb).right p hp t h1 h2).1 ho
  · intro a b t ha hb hfar
    have := of_decide_eq_true hfar
    have h1 := (box ha).2
    have h2 := (box hb).1
    change (segAt s a).atY t < (segAt s b).atY t
    linarith
  · intro a b t ha hb hfar
    have := of_decide_eq_true hfar
    have h1 := (box ha).2
    have h2 := (box hb).1
    change (segAt s a).atY t < (segAt s b).atY t
    linarith
  · intro a t ha
    have := (box ha).1
    change (segAt s a).minX - cfg.eps < (segAt s a).atY t
    linarith
  · intro a t ha
    have := (box ha).2
    change (segAt s a).atY t < (segAt s a).maxX + cfg.eps
    linarith
  · intro a ha
    exact (Geom.C42_ends _ (((tall_iff h a).1 ha).down h)).1
  · intro a b c t ha hb hne hw h1 h2
    exact hG.alone a b c t hne ((on_iff h).1 ha) ((on_iff h).1 hb) hw ((linked_iff h).1 h1) ((linked_iff h).1 h2)
  · intro a b t ha hb hne hw hn h1 h2 hc
    have := hG.ends a b t hne hw ((corner_iff h).1 hc) (blur ha hb hn)
    change t < (segAt s a).stop.y at h1
    change t < (segAt s b).stop.y at h2
    change (segAt s a).start.y = t ∧ (segAt s b).start.y = t ∧ (segAt s a).start.x = (segAt s b).start.x
    rcases this with ⟨e1, e2 | e2⟩ | ⟨e1, _⟩
    · exact ⟨e1, by rw [e2]; exact e1, by rw [e2]⟩
    · rw [e2] at h2; linarith
    · linarith

/-- On a line where a segment starts or ends the segments are in order, exactly. -/
theorem inOrder_le (h : Arena s tags) (he : 0 < cfg.eps) (hsolve : Geom.FindsRoots cfg.solve) (hG : General cfg s) {t : ℝ} {a b : Nat} (hne : a ≠ b)
    (ha : (env cfg s).On t a) (hb : (env cfg s).On t b) (hc : (env cfg s).Corner t) (ho : (env cfg s).InOrder t a b) : (segAt s a).atY t ≤ (segAt s b).atY t := by
  by_cases h1 : (env cfg s).Sure t a b
  · exact ((env_comparable h he hsolve).sure_lt h1).le
  · by_cases hw : Calm cfg s a b
    · exact Sweep.atY_of_lt ha hb (ho.2.2 hw)
    have hs := hG.ends a b t hne hw ((corner_iff h).1 hc) (blurred_of_near h ((on_iff h).1 ha) ((on_iff h).1 hb) ⟨h1, ho.1⟩)
    exact (hs.atY (((tall_iff h a).1 ha.1).down h) (((tall_iff h b).1 hb.1).down h)).le

theorem onLine_west (h : Arena s tags) (he : 0 < cfg.eps) (hsolve : Geom.FindsRoots cfg.solve) (hG : General cfg s) {t : ℝ} {l : List Sweep.Entry}
    (hl : Sweep.OnLineG (env cfg s) t l) (hc : (env cfg s).Corner t) : (l.map Sweep.Entry.seg).Pairwise (West cfg s t) := by
  have hnd : l.Pairwise fun e f => e.seg ≠ f.seg := List.pairwise_map.1 hl.nodup
  rw [List.pairwise_map]
  refine (hnd.and hl.order).imp_of_mem ?_
  intro e f h1 h2 ⟨hne, ho⟩
  have hle := inOrder_le h he hsolve hG hne (hl.on e h1) (hl.on f h2) hc ho
  obtain ⟨_, a1, a2⟩ := hl.on e h1
  obtain ⟨_, b1, b2⟩ := hl.on f h2
  exact ⟨⟨t, by simpa using he.le, b1, b2, by linarith⟩, t, by simpa using he.le, a1, a2, by linarith⟩

theorem general_order (h : Arena s tags) (he : 0 < cfg.eps) (hpp : Searches cfg.pp) (hsolve : Geom.FindsRoots cfg.solve) (hf : OneFirst cfg.first)
    (hG : General cfg s) (fuel : Nat) : LineOrder cfg s fuel := by
  intro st hr hc
  exact onLine_west h he hsolve hG (Sweep.Reached.generic (env_generic h he hsolve hf hG) (env_sched h) (env_pp hpp) hr).2 hc

theorem general_ordered (h : Arena s tags) (he : 0 < cfg.eps) (hpp : Searches cfg.pp) (hsolve : Geom.FindsRoots cfg.solve) (hf : OneFirst cfg.first)
    (hG : General cfg s) (single : T → Bool → W) (hn : ∀ t b, single t (!b) = - single t b) (fuel : Nat) : (env cfg s).Ordered fuel := by
  intro st w v hst hw hv
  have hP := env_generic (cfg := cfg) h he hsolve hf hG
  have hC := env_contours (cfg := cfg) h single hn
  have hK := env_comparable (cfg := cfg) h he hsolve
  obtain ⟨yl, hI, hg⟩ : ∃ yl, Sweep.Idle (env cfg s) yl st ∧ Sweep.RestG (env cfg s) yl st := by
    rcases hst with rfl | hr
    · exact ⟨⊥, Sweep.Idle.init _, Sweep.RestG.init _⟩
    · refine ⟨st.y, ?_, (Sweep.Reached.generic hP (env_sched h) (env_pp hpp) hr).1⟩
      clear hw
      induction hr with
      | first s' hl => exact ((Sweep.Idle.init _).next hC (env_sched h) hK (env_pp hpp) hl).2.2
      | next s1 s2 _ hl ih => exact (ih.next hC (env_sched h) hK (env_pp hpp) hl).2.2
  cases hy : Sweep.nextY (env cfg s) st with
  | none => unfold Sweep.beforeInts at hw; rw [hy] at hw; simp at hw
  | some y =>
    obtain ⟨w', k1, hRd⟩ := Sweep.beforeInts_total hC (env_sched h) hK (env_pp hpp) hI.between hI.snp hy
    rw [hw, Option.some.injEq] at k1
    subst k1
    have hGd := Sweep.beforeInts_generic hP (env_sched h) (env_pp hpp) hI.between hy hw hg
    have hM := Sweep.intLoop_generic hP hRd.hold fuel ⟨hGd, hRd.move⟩ hv
    rw [hGd.y_eq]
    refine ord_of_west h he ?_ fun hc => onLine_west h he hsolve hG hM.good.line hc
    intro a ha
    obtain ⟨e, he', rfl⟩ := List.mem_map.1 ha
    have := hM.good.line.on e he'
    refine ⟨((tall_iff h _).1 this.1).1, ?_, this.2⟩
    unfold Sweep.Env.isHorizontal
    rw [decide_eq_false_iff_not]
    exact this.1.2.ne

/-- In general position the sweep returns, and the result does not depend on the bounds if they are large enough. -/
theorem general_returns (h : Arena s tags) (he : 0 < cfg.eps) (hpp : Searches cfg.pp) (hsolve : Geom.FindsRoots cfg.solve) (hf : OneFirst cfg.first)
    (hG : General cfg s) (single : T → Bool → W) (hn : ∀ t b, single t (!b) = - single t b) :
    ∃ N t, ∀ fuel, N ≤ fuel → sweep cfg single s tags fuel fuel = some t := by
  let S := (env cfg s).segs.length
  let N := max ((env cfg s).heights.length + 1) ((S * S + 1) * (S * S + 1))
  have hS := env_sane h he hpp hsolve single hn (general_ordered h he hpp hsolve hf hG single hn N)
  obtain ⟨t, ht⟩ := Sweep.fromSegments_generic hS (env_generic h he hsolve hf hG) (fuel := N) (by omega) (le_max_right _ _)
  exact ⟨N, t, fun fuel hfu => Sweep.fromSegments_mono hfu hfu ht⟩

/-- In general position everything returns. -/
theorem finish_general {tags : List Bool} (h : Arena s tags) (he : 0 < cfg.eps) (hpp : Searches cfg.pp) (hsolve : Geom.FindsRoots cfg.solve)
    (hf : OneFirst cfg.first) (hG : General cfg s) (rule : FillRule) (op : Op) :
    ∃ N t' cs, ∀ fuel, N ≤ fuel → finish cfg rule op s tags fuel = .ok s t' cs := by
  have hn := BinaryWinding.single_neg
  obtain ⟨N, t, ht⟩ := general_returns h he hpp hsolve hf hG BinaryWinding.single hn
  have hV := env_valid h he hpp BinaryWinding.single hn (general_order h he hpp hsolve hf hG N)
  have ht0 := ht N le_rfl
  obtain ⟨t', hm, hrest⟩ := Sweep.C61_merge hV ht0 (close cfg.eps s)
  obtain ⟨H, hr, _⟩ := Sweep.driver_run hV ht0
  have hcons := Merge.C26_consistent hV.neg hr (end_adjacent h he hV ht0) hm
  obtain ⟨cs, hcs⟩ := Contours.C27_terminates t' (BinOp.inside rule op) hcons
  refine ⟨max N (2 * t'.n + 1), t', cs, ?_⟩
  intro fuel hf
  unfold finish fromSegments
  rw [ht fuel (by omega)]
  dsimp only
  rw [hm]
  dsimp only
  rw [hcs fuel (by omega)]

/-! ## What is in general position -/

/-- Segments that do not cross and that the comparisons tell apart are in general position. -/
theorem general_of_planar (hN : NoCross s) (hR : Resolved cfg s) : General cfg s := by
  have hc : ∀ i j, Slanted s i → Slanted s j → Calm cfg s i j := fun i j hi hj =>
    ⟨fun h => ⟨hN i j hi hj h, (hR i j hi hj h).1⟩, fun h => ⟨hN j i hj hi h, (hR j i hj hi h).1⟩⟩
  exact ⟨fun i j k t _ hi hj hw => absurd (hc i j hi.1 hj.1) hw, fun i j t _ hw _ hb => absurd (hc i j hb.1.1 hb.2.1.1) hw⟩

/-- Chains of a relation in which a pair has no third member. -/
theorem pair_chain {R : Nat → Nat → Prop} {i j k : Nat} (h1 : ∀ x, R i x → x = i ∨ x = j) (h2 : ∀ x, R j x → x = i ∨ x = j) (h : Relation.ReflTransGen R i k) :
    k = i ∨ k = j := by
  induction h with
  | refl => exact .inl rfl
  | tail _ h ih =>
    rcases ih with rfl | rfl
    · exact h1 _ h
    · exact h2 _ h

/-- Segments of which no three meet in one place are in general position, if at the heights of ends only those meet that have an end in common. -/
theorem general_of_pairs (h : Arena s tags) (he : 0 < cfg.eps) (hsolve : Geom.FindsRoots cfg.solve)
    (pairs : ∀ i j k t, i ≠ j → j ≠ k → i ≠ k → Blurred cfg s t i j → ¬ Blurred cfg s t j k)
    (between : ∀ i j k t, Has s t i → Has s t j → Has s t k → Told cfg s t i j → Told cfg s t j k → ¬ Blurred cfg s t i k)
    (ends : ∀ i j t, i ≠ j → Vertex s t → Blurred cfg s t i j → Share t (segAt s i) (segAt s j)) : General cfg s := by
  refine ⟨?_, fun i j t hne _ hv hb => ends i j t hne hv hb⟩
  intro i j k t hne hi hj _ hij hik
  have hK := env_comparable (cfg := cfg) h he hsolve
  have sym : ∀ {a b}, Blurred cfg s t a b → Blurred cfg s t b a := fun h => ⟨h.2.1, h.1, h.2.2.2, h.2.2.1⟩
  have chain : ∀ {a b}, Has s t a → Has s t b → Cluster cfg s t a b →
      Relation.ReflTransGen (fun a b => (env cfg s).On t a ∧ (env cfg s).On t b ∧ (a = b ∨ Blurred cfg s t a b)) a b := by
    intro a b ha hb hab
    refine Sweep.linked_chain hK ?_ ?_ ?_ ((on_iff h).2 ha) ((on_iff h).2 hb) ((linked_iff h).2 hab)
    · rintro a b (h | h)
      · exact .inl h.symm
      · exact .inr (sym h)
    · intro a b ha hb _ hn
      exact .inr (blurred_of_near h ((on_iff h).1 ha) ((on_iff h).1 hb) hn)
    · rintro a x c h1 h2 (rfl | h3)
      · exact absurd h2 (hK.sure_asymm h1)
      · obtain ⟨a1, a2, a3⟩ := (sure_iff h).1 h1
        obtain ⟨_, b2, b3⟩ := (sure_iff h).1 h2
        exact absurd h3 (between a x c t a1 a2 b2 a3 b3)
  have hij' : Blurred cfg s t i j := by
    have := chain hi hj hij
    have key : ∀ z, Relation.ReflTransGen (fun a b => (env cfg s).On t a ∧ (env cfg s).On t b ∧ (a = b ∨ Blurred cfg s t a b)) i z → z = i ∨ Blurred cfg s t i z := by
      intro z hz
      induction hz with
      | refl => exact .inl rfl
      | tail h0 h2 ih =>
        rename_i x z
        by_cases hzi : z = i
        · exact .inl hzi
        right
        rcases h2.2.2 with rfl | h3
        · exact ih.resolve_left hzi
        · by_cases hxi : x = i
          · subst hxi; exact h3
          · have hb := ih.resolve_left hxi
            by_cases hxz : x = z
            · subst hxz; exact hb
            · exact absurd h3 (pairs i x z t (Ne.symm hxi) hxz (Ne.symm hzi) hb)
    exact (key j this).resolve_left hne.symm
  have hk : Has s t k := by
    rcases Relation.ReflTransGen.cases_tail hik.1 with h0 | ⟨x, _, h0⟩
    · rw [h0]; exact hi
    · exact h0.2.1
  refine pair_chain ?_ ?_ (chain hi hk hik)
  · rintro x ⟨_, _, h0 | h0⟩
    · exact .inl h0.symm
    · by_cases h1 : x = i
      · exact .inl h1
      by_cases h2 : x = j
      · exact .inr h2
      exact absurd h0 (pairs j i x t hne.symm (Ne.symm h1) (Ne.symm h2) (sym hij'))
  · rintro x ⟨_, _, h0 | h0⟩
    · exact .inr h0.symm
    · by_cases h1 : x = i
      · exact .inl h1
      by_cases h2 : x = j
      · exact .inr h2
      exact absurd h0 (pairs i j x t hne (Ne.symm h2) (Ne.symm h1) hij')

/-! ## Between the lines -/

/-- The point is on the same side of any two segments that are not calm and that the comparison does not tell apart at its height. -/
def Beside (cfg : Cfg) (s : Segments ℝ) (x z : ℝ) : Prop := ∀ i j, i ≠ j → ¬ Calm cfg s i j → Blurred cfg s z i j → (segAt s i).atY z < x → (segAt s j).atY z < x

theorem general_splits (h : Arena s tags) (he : 0 < cfg.eps) (hpp : Searches cfg.pp) (hsolve : Geom.FindsRoots cfg.solve) (hf : OneFirst cfg.first)
    (hG : General cfg s) {fuel : Nat} {st : Sweep.State ℝ} {x z : ℝ} (hst : st = Sweep.State.new (env cfg s) ∨ (Sweep.Reached (env cfg s) fuel st ∧ st.y ≤ z))
    (hlast : Sweep.LastBefore (env cfg s) fuel z st)
    (hm : ∀ a, a ∈ Sweep.newSegs st.line ↔ a < s.len ∧ (segAt s a).start.y ≤ z ∧ z < (segAt s a).stop.y) (hB : Beside cfg s x z) : SplitsAt s st x z := by
  rcases hst with rfl | ⟨hr, hyz⟩
  · exact List.Pairwise.nil
  have hP := env_generic (cfg := cfg) h he hsolve hf hG
  obtain ⟨hRest, hLine⟩ := Sweep.Reached.generic hP (env_sched h) (env_pp hpp) hr
  have hb := (Sweep.Reached.spec (env_sched h) (env_pp hpp) hr).1
  have has : ∀ a ∈ Sweep.newSegs st.line, Has s z a := by
    intro a ha
    obtain ⟨a1, a2, a3⟩ := (hm a).1 ha
    exact ⟨⟨a1, lt_of_le_of_lt a2 a3⟩, a2, a3.le⟩
  have htame : ∀ a b, [a, b].Sublist (Sweep.newSegs st.line) → Calm cfg s a b → ¬ LeftOf (segAt s b) (segAt s a) := fun a b hab hc => hRest.tameAt hab hc
  -- the order at the height of the point
  have hord : ∀ a b, [a, b].Sublist (Sweep.newSegs st.line) → ¬ (env cfg s).Sure z b a := by
    intro a b hab
    rcases hyz.eq_or_lt with hy | hy
    · have ho : ((st.line.map Sweep.Entry.seg)).Pairwise fun a b => (env cfg s).InOrder st.y a b := List.pairwise_map.2 hLine.order
      have := (ho.sublist (Sweep.newSegs_sublist _)).sublist hab
      simp only [List.pairwise_cons, List.mem_singleton, forall_eq] at this
      rw [← hy]; exact this.1.1
    · rcases hlast with h0 | ⟨s', h1, h2⟩
      · rw [(Sweep.nextLine_none (env_sched h) hb h0).1] at hab
        simp at hab
      · obtain ⟨_, _, _, hn⟩ := Sweep.nextLine_parts (env_sched h) (env_pp hpp) hb h1
        exact hRest.between hP (env_sched h) hb hn hab (by exact_mod_cast hy) h2
  have hnd : (Sweep.newSegs st.line).Nodup := hLine.nodup.sublist (Sweep.newSegs_sublist _)
  refine Sweep.pairwise_of_sublist _ fun a b hab hlt => ?_
  have ha := hab.subset (show a ∈ [a, b] by simp)
  have hbm := hab.subset (show b ∈ [a, b] by simp)
  have hne : a ≠ b := by
    rintro rfl
    have := hnd.sublist hab
    simp at this
  by_cases hw : Calm cfg s a b
  · refine lt_of_le_of_lt ?_ hlt
    by_contra hn
    exact htame a b hab hw ⟨z, (has b hbm).2, (has a ha).2, not_le.1 hn⟩
  by_cases h1 : (env cfg s).Sure z a b
  · have : (segAt s a).atY z < (segAt s b).atY z := (env_comparable h he hsolve).sure_lt h1
    exact this.trans hlt
  · exact hB b a hne.symm (fun h => hw ⟨h.2, h.1⟩) (blurred_of_near h (has b hbm) (has a ha) ⟨hord a b hab, h1⟩) hlt

theorem gap_general {single : T → Bool → W} {fuel2 fuel : Nat} {t : Topo.Topo ℝ W} (h : Arena s tags) (he : 0 < cfg.eps) (hpp : Searches cfg.pp)
    (hsolve : Geom.FindsRoots cfg.solve) (hf : OneFirst cfg.first) (hn : ∀ t b, single t (!b) = - single t b) (hG : General cfg s)
    (hs : sweep cfg single s tags fuel2 fuel = some t) : ∃ m, Scan.buildScanLineOrders t = some m ∧ ∀ x z, Beside cfg s x z →
      ∃ l1 l2, GapAt s t m x z (windArena cfg s tags single x z) l1 l2 := by
  obtain ⟨m, hm, H⟩ := gap_core h (env_valid h he hpp single hn (general_order h he hpp hsolve hf hG fuel2)) hs
  refine ⟨m, hm, fun x z hB => ?_⟩
  obtain ⟨st, L, h1, h2, _, _, h5, h6⟩ := H z
  obtain ⟨l1, l2, _, hg⟩ := h6 x (general_splits h he hpp hsolve hf hG h1 h2 h5 hB)
  exact ⟨l1, l2, hg⟩

/-- C76 for inputs in general position: nothing about the order of the line is assumed. -/
theorem C76_map_general {single : T → Bool → W} {fuel2 fuel : Nat} {t : Topo.Topo ℝ W} {ps : List (List (PathEl ℝ) × T)}
    (hb : buildPaths ps = .ok s tags) (he : 0 < cfg.eps) (hpp : Searches cfg.pp) (hsolve : Geom.FindsRoots cfg.solve) (hf : OneFirst cfg.first)
    (hn : ∀ t b, single t (!b) = - single t b) (hG : General cfg s) (h : sweep cfg single s tags fuel2 fuel = some t) :
    (∀ a < s.len, ∃ vs : List (Sweep.Visit ℝ),
      (∃ v, vs.head? = some v ∧ v.y = (segAt s a).start.y ∧ v.x0 = (segAt s a).start.x) ∧
      (∃ v, vs.getLast? = some v ∧ v.y = (segAt s a).stop.y ∧ v.x1 = (segAt s a).stop.x) ∧
      ∀ l v w l', vs = l ++ v :: w :: l' → v.y < w.y ∧ ∃ i, Sweep.PieceOf t a i (v.x1, v.y) (w.x0, w.y)) ∧
    (∀ e : Topo.Half, e.idx < t.n → ∃ p, t.pointIdx e = some p ∧ p < t.points.length) ∧
    (∀ (e : Topo.Half) (p : Nat), t.pointIdx e = some p → t.pointIdx (t.nb e).cw = some p ∧ (t.nb (t.nb e).cw).ccw = e ∧
      (∀ e', t.pointIdx e' = some p → ∃ k, (fun a => (t.nb a).cw)^[k] e = e') ∧ t.windingCw e = t.windingCcw (t.nb e).cw) :=
  C76_map_partial hb he hpp hn (general_order (buildPaths_arena hb) he hpp hsolve hf hG fuel2) h

/-- C77 for inputs in general position: nothing about the order of the line is assumed, and every point that is beside (not between) the segments
that the comparison does not tell apart, unless they are calm. -/
theorem C77_winding_general {single : T → Bool → W} {fuel2 fuel : Nat} {t : Topo.Topo ℝ W} {ps : List (List (PathEl ℝ) × T)}
    (hb : buildPaths ps = .ok s tags) (he : 0 < cfg.eps) (hpp : Searches cfg.pp) (hsolve : Geom.FindsRoots cfg.solve) (hf : OneFirst cfg.first)
    (hn : ∀ t b, single t (!b) = - single t b) (hG : General cfg s) (h : sweep cfg single s tags fuel2 fuel = some t) :
    ∃ m, Scan.buildScanLineOrders t = some m ∧ ∀ x z, Beside cfg s x z →
      ∃ l1 l2, GapAt s t m x z ((ps.map fun p => windPath p.1 x z • single p.2 true).sum) l1 l2 := by
  obtain ⟨m, hm, H⟩ := gap_general (buildPaths_arena hb) he hpp hsolve hf hn hG h
  refine ⟨m, hm, fun x z hB => ?_⟩
  rw [← windArena_paths (cfg := cfg) hb single hn x z]
  exact H x z hB

/-! ## C81: inputs that cross, in general position -/

/-- C81: a boolean operation on paths in general position returns, and what it returns is right. -/
theorem C81_paths {a b : List (PathEl ℝ)} {tags : List Bool} (he : 0 < cfg.eps) (hpp : Searches cfg.pp) (hsolve : Geom.FindsRoots cfg.solve)
    (hf : OneFirst cfg.first) (hb : buildPaths (tagged a b) = .ok s tags) (hG : General cfg s) (rule : FillRule) (op : Op) :
    ∃ N t' cs, (∀ fuel, N ≤ fuel → binaryOp cfg a b rule op fuel = .ok s t' cs) ∧ ∀ x z, Away cfg s x z → Beside cfg s x z →
      (Combine op (InShape rule (windPath a x z)) (InShape rule (windPath b x z)) → windContours s t' cs x z = 1) ∧
      (¬ Combine op (InShape rule (windPath a x z)) (InShape rule (windPath b x z)) → windContours s t' cs x z = 0) := by
  have ha := buildPaths_arena hb
  have hn := BinaryWinding.single_neg
  obtain ⟨N, t', cs, h⟩ := finish_general ha he hpp hsolve hf hG rule op
  refine ⟨N, t', cs, ?_, fun x z hx hB => ?_⟩
  · intro fuel hf
    unfold binaryOp
    rw [hb]
    exact h fuel hf
  refine finish_winding ha he (env_valid ha he hpp _ hn (general_order ha he hpp hsolve hf hG N)) (h N le_rfl) hx ?_
  intro t ht
  obtain ⟨m, -, H⟩ := gap_general ha he hpp hsolve hf hn hG ht
  obtain ⟨l1, l2, hg⟩ := H x z hB
  rw [windArena_paths (cfg := cfg) hb _ hn x z, tagged_wind] at hg
  exact ⟨m, l1, l2, hg⟩

/-- C81 for polylines. -/
theorem C81_polylines {as bs : List (List (Segs.Pt ℝ))} (he : 0 < cfg.eps) (hpp : Searches cfg.pp) (hsolve : Geom.FindsRoots cfg.solve)
    (hf : OneFirst cfg.first) (hG : General cfg (buildPolylines as bs).1) (rule : FillRule) (op : Op) :
    ∃ N t' cs, (∀ fuel, N ≤ fuel → polylineOp cfg as bs rule op fuel = .ok (buildPolylines as bs).1 t' cs) ∧
      ∀ x z, Away cfg (buildPolylines as bs).1 x z → Beside cfg (buildPolylines as bs).1 x z →
        (Combine op (InShape rule (as.map fun ps => windPolyline ps x z).sum) (InShape rule (bs.map fun ps => windPolyline ps x z).sum) →
          windContours (buildPolylines as bs).1 t' cs x z = 1) ∧
        (¬ Combine op (InShape rule (as.map fun ps => windPolyline ps x z).sum) (InShape rule (bs.map fun ps => windPolyline ps x z).sum) →
          windContours (buildPolylines as bs).1 t' cs x z = 0) := by
  have ha := buildPolylines_arena as bs
  have hn := BinaryWinding.single_neg
  obtain ⟨N, t', cs, h⟩ := finish_general ha he hpp hsolve hf hG rule op
  refine ⟨N, t', cs, h, fun x z hx hB => ?_⟩
  refine finish_winding ha he (env_valid ha he hpp _ hn (general_order ha he hpp hsolve hf hG N)) (h N le_rfl) hx ?_
  intro t ht
  obtain ⟨m, -, H⟩ := gap_general ha he hpp hsolve hf hn hG ht
  obtain ⟨l1, l2, hg⟩ := H x z hB
  rw [polylines_wind] at hg
  exact ⟨m, l1, l2, hg⟩

end Verif.Full
