import Verif.Scan.Inv
import Verif.Scan.Records

/-! `build_scan_line_orders` at the end of a sweep collects exactly the records, and its assertions hold. -/

namespace Verif.Scan
open Verif.Topo Verif.Range Verif.Merge
set_option linter.unusedSectionVars false

variable {K : Type} [LinearOrder K] {W : Type} [AddCommGroup W] [DecidableEq W]
variable {single : Nat → Bool → W} {orient : Nat → Bool}

/-- What else is true between ranges. -/
structure Extra (s : SState K W) : Prop where
  east : ∀ i < s.t.n, ∀ e, s.t.scanEast i = some e → ∃ ye yi, Sv s.t e ye ∧ Sv s.t i yi ∧ ye < yi
  incr : ∀ i j yi yj, i < j → Sv s.t i yi → Sv s.t j yj → yi ≤ yj
  ended : ∀ o y, Sv s.t o y → o ∈ s.line.map (out s.t) ∨ ∃ ye, Cv s.t o ye ∧ (ye : WithBot K) ≤ s.yl

theorem Step.yl_le {u v : SState K W} (h : Step single orient u v) : u.yl ≤ v.yl := by
  cases h with
  | range hist A B y E Eo En t t' yl done H hy hp =>
    rcases hy with h | h
    · exact le_of_lt h
    · exact le_of_eq h.1

theorem Steps.yl_le {u v : SState K W} (h : Steps single orient u v) : u.yl ≤ v.yl := by
  induction h with
  | refl => exact le_refl _
  | tail u v _ h ih => exact le_trans ih h.yl_le

theorem Steps.trans {u v w : SState K W} (h1 : Steps single orient u v) (h2 : Steps single orient v w) : Steps single orient u w := by
  induction h2 with
  | refl => exact h1
  | tail a b _ h ih => exact .tail _ _ _ ih h

theorem Steps.extra (hsingle : ∀ s b, single s (!b) = - single s b) {s : SState K W} (h : Steps single orient SState.init s) :
    Extra s := by
  generalize h0 : (SState.init : SState K W) = s0 at h
  induction h with
  | refl =>
    subst h0
    have e3 : ∀ o y, ¬ Sv (SState.init : SState K W).t o y := by
      intro o y; simp [Sv, SState.init, Topo.init]
    exact ⟨fun i hi => by simp [SState.init, Topo.init] at hi, fun i j yi yj _ h => absurd h (e3 _ _), fun o y h => absurd h (e3 _ _)⟩
  | tail u v hu hst ih =>
    subst h0
    have ai := hu.ainv hsingle
    obtain ⟨LA, LO, LB, N, y, h1, h2, h3, h4, h5, R⟩ := hst.records hsingle hu.run
    rw [h1] at ai
    have hyl : u.yl ≤ y := by rw [← h3]; exact hst.yl_le
    constructor
    · intro i hi e he
      by_cases hin : i < u.t.n
      · rw [R.eastOld i hin] at he
        obtain ⟨ye, yi, k1, k2, k3⟩ := ih.east i hin e he
        exact ⟨ye, yi, (R.hS _ _).2 (.inl k1), (R.hS _ _).2 (.inl k2), k3⟩
      · obtain ⟨k1, k2⟩ := R.eastNew i (by omega) hi e he
        obtain ⟨LB', rfl⟩ : ∃ LB', LB = e :: LB' := by
          cases LB with
          | nil => simp at k2
          | cons a l => simp at k2; exact ⟨l, by rw [k2]⟩
        have hmem : e ∈ LA ++ LO ++ e :: LB' := by simp
        have hidx : (LA ++ LO ++ e :: LB')[LA.length + LO.length]? = some e := by
          rw [List.getElem?_append_right (by simp)]; simp
        obtain ⟨ye, hye⟩ := ai.sIn e hmem
        refine ⟨ye, y, (R.hS _ _).2 (.inl hye), (R.hS _ _).2 (.inr ⟨k1, rfl⟩), ?_⟩
        have hle := ai.sLe _ _ hye
        rcases h5 with h5 | ⟨h5, h6⟩
        · exact WithBot.coe_lt_coe.1 (lt_of_le_of_lt hle h5)
        · rcases lt_or_eq_of_le hle with hl | hl
          · rw [h5] at hl; exact WithBot.coe_lt_coe.1 hl
          · have := ai.sGap _ _ _ hidx hye hl
            omega
    · intro i j yi yj hij hi hj
      rcases (R.hS _ _).1 hi with hi | ⟨hi, rfl⟩
      · rcases (R.hS _ _).1 hj with hj | ⟨hj, rfl⟩
        · exact ih.incr i j yi yj hij hi hj
        · exact WithBot.coe_le_coe.1 (le_trans (ai.sLe _ _ hi) hyl)
      · rcases (R.hS _ _).1 hj with hj | ⟨hj, rfl⟩
        · have := ai.sLt _ _ hj
          have := (R.lt i hi).1
          omega
        · exact le_refl _
    · intro o y' ho
      rw [h2, h3]
      rcases (R.hS _ _).1 ho with ho | ⟨ho, rfl⟩
      · rcases ih.ended o y' ho with hm | ⟨ye, k1, k2⟩
        · rw [h1] at hm
          simp only [List.mem_append] at hm ⊢
          rcases hm with (hm | hm) | hm
          · exact .inl (.inl (.inl hm))
          · exact .inr ⟨y, (R.hC _ _).2 (.inr ⟨hm, rfl⟩), le_refl _⟩
          · exact .inl (.inr hm)
        · exact .inr ⟨ye, (R.hC _ _).2 (.inl k1), le_trans k2 hyl⟩
      · exact .inl (by simp [ho])

/-! ## Building -/

/-- The height at which `i` starts. -/
def sy [Inhabited K] (t : Topo K W) (i : Nat) : K := ((pointOf t ⟨i, true⟩).map Prod.snd).getD default

open Classical in
theorem build_spec (hsingle : ∀ s b, single s (!b) = - single s b) {f : SState K W}
    (h : Steps single orient SState.init f) (hl : f.line = []) :
    ∃ m, buildScanLineOrders f.t = some m ∧
      (∀ o, (m.west o).Pairwise fun a b => a.1 < b.1) ∧ (∀ o, (m.east o).Pairwise fun a b => a.1 < b.1) ∧
      (∀ o y v, (y, v) ∈ m.west o ↔ InW f.t o y v) ∧ (∀ o y v, (y, v) ∈ m.east o ↔ InE f.t o y v) := by
  have hrun := h.run
  rw [hl] at hrun
  have hpts := (C24_one_open single orient hsingle _ _ _ hrun).2.2 rfl
  have ai := h.ainv hsingle
  have ex := h.extra hsingle
  -- heights
  have pt : ∀ hf : Half, hf.idx < f.t.n → ∃ a, pointOf f.t hf = some a := by
    intro hf hn
    obtain ⟨p, h1, h2⟩ := hpts hf hn
    exact ⟨f.t.points[p], by simp [pointOf, h1, h2]⟩
  have pst : ∀ i x y, pointOf f.t ⟨i, true⟩ = some (x, y) → StartsAt f.t i y := by
    intro i x y hp
    unfold pointOf at hp
    rw [Option.bind_eq_some_iff] at hp
    obtain ⟨p, h1, h2⟩ := hp
    exact ⟨p, x, h1, h2⟩
  have uniq : ∀ i y y', StartsAt f.t i y → StartsAt f.t i y' → y = y' := by
    rintro i y y' ⟨p, x, h1, h2⟩ ⟨q, x', h3, h4⟩
    rw [h1] at h3
    have : p = q := by simpa using h3
    subst this
    rw [h2] at h4
    simp at h4; exact h4.2
  by_cases hn : f.t.n = 0
  · -- no output segments
    have hsa : f.t.scanAfter = [] := by
      cases hc : f.t.scanAfter with
      | nil => rfl
      | cons a l =>
        obtain ⟨y, w, e⟩ := a
        have hm : (y, w, e) ∈ f.t.scanAfter := by rw [hc]; simp
        cases e with
        | some o =>
          have := (ai.wLt o y w (.inr (.inr hm))).1
          omega
        | none =>
          cases w with
          | some o =>
            have := (ai.eLt o y none (.inr (.inr hm))).1
            omega
          | none =>
            exfalso
            revert hm
            have key : ∀ s : SState K W, Steps single orient SState.init s → ∀ y, (y, none, none) ∉ s.t.scanAfter := by
              intro s hs
              generalize h0 : (SState.init : SState K W) = s0 at hs
              induction hs with
              | refl => subst h0; intro y; simp [SState.init, Topo.init]
              | tail u v hu hst ih =>
                subst h0
                intro y hm
                cases hst with
                | range hist A B y' E Eo En t t' yl done H hy hp =>
                  obtain ⟨nOf, R⟩ := range_res hsingle H (hu.run.inv hsingle) hp
                  have ha := R.after
                  simp only at hm ih
                  rw [ha, List.mem_append] at hm
                  rcases hm with hm | hm
                  · exact ih y hm
                  · split at hm
                    · rename_i hc
                      simp only [List.mem_singleton, Prod.mk.injEq] at hm
                      obtain ⟨_, k2, k3⟩ := hm
                      rcases hc.2 with k | k
                      · cases hA : A.getLast? with
                        | none => exact k (by simpa using hA)
                        | some a => rw [hA] at k2; simp at k2
                      · cases hB : B.head? with
                        | none => exact k (by simpa using hB)
                        | some a => rw [hB] at k3; simp at k3
                    · simp at hm
            exact key f h y
    have he : ∀ o y v, ¬ InW f.t o y v := fun o y v k => by have := (ai.wLt o y v k).1; omega
    have he' : ∀ o y v, ¬ InE f.t o y v := fun o y v k => by have := (ai.eLt o y v k).1; omega
    refine ⟨⟨fun _ => [], fun _ => []⟩, ?_, by simp, by simp, fun o y v => by simp [he], fun o y v => by simp [he']⟩
    simp [buildScanLineOrders, hn, loop1, loop2, loop3, hsa, loop4, tidy, dedup]
  obtain ⟨a0, _⟩ := pt ⟨0, true⟩ (by simp; omega)
  have : Inhabited K := ⟨a0.1⟩
  have H : Heights f.t (sy f.t) (fun i => decide (Horiz f.t i)) (List.range f.t.n) := by
    constructor
    · intro i hi
      obtain ⟨a, ha⟩ := pt ⟨i, true⟩ (List.mem_range.1 hi)
      exact ⟨a.1, by unfold sy; rw [ha]; simp⟩
    · intro i hi
      obtain ⟨a, ha⟩ := pt ⟨i, true⟩ (List.mem_range.1 hi)
      obtain ⟨b, hb⟩ := pt ⟨i, false⟩ (List.mem_range.1 hi)
      unfold isHorizontal
      simp only [ha, hb]
      congr 1
      rw [decide_eq_decide]
      unfold pointOf at ha hb
      rw [Option.bind_eq_some_iff] at ha hb
      obtain ⟨p, p1, p2⟩ := ha
      obtain ⟨q, q1, q2⟩ := hb
      constructor
      · intro e; exact ⟨a, b, ⟨p, q, p1, q1, p2, q2⟩, e⟩
      · rintro ⟨a', b', hr, e⟩
        obtain ⟨rfl, rfl⟩ := runs_iff p1 q1 p2 q2 hr
        exact e
  have hst : ∀ i < f.t.n, StartsAt f.t i (sy f.t i) := by
    intro i hi
    obtain ⟨x, hx⟩ := H.start i (List.mem_range.2 hi)
    exact pst i x _ hx
  have hsv : ∀ i y, Sv f.t i y → y = sy f.t i := fun i y k => uniq i _ _ k.2.2 (hst i k.1)
  have eastSt : ∀ i < f.t.n, ∀ e, f.t.scanEast i = some e → Sv f.t i (sy f.t i) ∧ Sv f.t e (sy f.t e) ∧ sy f.t e < sy f.t i := by
    intro i hi e he
    obtain ⟨ye, yi, k1, k2, k3⟩ := ex.east i hi e he
    have e1 := hsv _ _ k1
    have e2 := hsv _ _ k2
    rw [e1] at k1 k3; rw [e2] at k2 k3
    exact ⟨k2, k1, k3⟩
  have noDup : ∀ i j, i ∈ List.range f.t.n → j ∈ List.range f.t.n → i < j → Sv f.t i (sy f.t i) → Sv f.t j (sy f.t j) →
      (sy f.t i = sy f.t j → False) → sy f.t i < sy f.t j := by
    intro i j _ _ hij hi hj hne
    rcases lt_or_eq_of_le (ex.incr i j _ _ hij hi hj) with k | k
    · exact k
    · exact (hne k).elim
  have pwLt : (List.range f.t.n).Pairwise fun i j => i < j ∧ i ∈ List.range f.t.n ∧ j ∈ List.range f.t.n := by
    have := List.pairwise_lt_range (n := f.t.n)
    rw [List.pairwise_iff_getElem] at this ⊢
    intro i j hi hj hij
    exact ⟨this i j hi hj hij, List.getElem_mem _, List.getElem_mem _⟩
  obtain ⟨m1, b1, c1, d1⟩ := loop1_spec f.t _ _ _ ⟨fun _ => [], fun _ => []⟩ H
  obtain ⟨m2, b2, c2, d2⟩ := loop2_spec f.t _ _ _ m1 H List.nodup_range (by
    intro i hi e he r hr
    rw [d1] at hr
    obtain ⟨_, _, k⟩ := eastSt i (List.mem_range.1 hi) e he
    rcases hr with hr | ⟨_, _, w, _, rfl⟩
    · simp at hr
    · exact k) (by
    refine pwLt.imp ?_
    intro i j ⟨hij, hi, hj⟩ e hei hej
    refine noDup i j hi hj hij (eastSt i (List.mem_range.1 hi) e hei).1 (eastSt j (List.mem_range.1 hj) e hej).1 ?_
    intro hyy
    have w1 : InW f.t e (sy f.t i) (some i) := .inr (.inl ⟨i, List.mem_range.1 hi, hei, hst i (List.mem_range.1 hi), rfl⟩)
    have w2 : InW f.t e (sy f.t j) (some j) := .inr (.inl ⟨j, List.mem_range.1 hj, hej, hst j (List.mem_range.1 hj), rfl⟩)
    rw [← hyy] at w2
    have := ai.wFun _ _ _ _ w1 w2
    simp at this
    omega)
  have westIn : ∀ i ∈ List.range f.t.n, decide (Horiz f.t i) = false → ∀ w, f.t.scanWest i = some w → InE f.t w (sy f.t i) (some i) :=
    fun i hi hh w hw => .inr (.inl ⟨i, List.mem_range.1 hi, by simpa using hh, hw, hst i (List.mem_range.1 hi), rfl⟩)
  obtain ⟨m3, b3, c3, d3⟩ := loop3_spec f.t _ _ _ m2 H List.nodup_range (by
    intro i hi hh w hw r hr
    rw [d2, c1] at hr
    rcases hr with hr | ⟨hwl, e, he, rfl⟩
    · simp at hr
    · have k1 := westIn i hi hh w hw
      obtain ⟨⟨ys, s1, s2⟩, _⟩ := (ai.eOk _ _ _ k1).1
      have := hsv _ _ s1
      subst this
      rcases lt_or_eq_of_le s2 with k | k
      · exact k
      · exfalso
        have k2 : InE f.t w (sy f.t w) (some e) := .inl ⟨List.mem_range.1 hwl, hst w (List.mem_range.1 hwl), by simp, he⟩
        rw [k] at k2
        have := ai.eFun _ _ _ _ k1 k2
        have : i = e := by simpa using this
        subst this
        have := (eastSt w (List.mem_range.1 hwl) i he).2.2
        rw [k] at this
        exact lt_irrefl _ this) (by
    refine pwLt.imp ?_
    intro i j ⟨hij, hi, hj⟩ hhi hhj w hwi hwj
    have si : Sv f.t i (sy f.t i) := ⟨List.mem_range.1 hi, by simpa using hhi, hst i (List.mem_range.1 hi)⟩
    have sj : Sv f.t j (sy f.t j) := ⟨List.mem_range.1 hj, by simpa using hhj, hst j (List.mem_range.1 hj)⟩
    refine noDup i j hi hj hij si sj ?_
    intro hyy
    have k1 := westIn i hi hhi w hwi
    have k2 := westIn j hj hhj w hwj
    rw [← hyy] at k2
    have := ai.eFun _ _ _ _ k1 k2
    simp at this
    omega)
  have d4 := loop4_spec f.t.scanAfter m3
  have hW : ∀ o y v, (y, v) ∈ (loop4 f.t.scanAfter m3).west o ↔ InW f.t o y v := by
    intro o y v
    rw [d4.1, c3, c2, d1]
    constructor
    · rintro (((hr | ⟨h1, h2, w, h3, h4⟩) | ⟨i, h1, h2, h3⟩) | hr)
      · simp at hr
      · simp only [Prod.mk.injEq] at h4
        obtain ⟨rfl, rfl⟩ := h4
        exact .inl ⟨List.mem_range.1 h1, by simpa using h2, hst _ (List.mem_range.1 h1), by simp, h3⟩
      · simp only [Prod.mk.injEq] at h3
        obtain ⟨rfl, rfl⟩ := h3
        exact .inr (.inl ⟨i, List.mem_range.1 h1, h2, hst _ (List.mem_range.1 h1), rfl⟩)
      · exact .inr (.inr hr)
    · rintro (⟨h1, h2, h3, h4, h5⟩ | ⟨i, h1, h2, h3, h4⟩ | hr)
      · left; left; right
        obtain ⟨w, rfl⟩ := Option.ne_none_iff_exists'.1 h4
        exact ⟨List.mem_range.2 h1, by simpa using h2, w, h5, by rw [uniq _ _ _ h3 (hst o h1)]⟩
      · left; right
        exact ⟨i, List.mem_range.2 h1, h2, by rw [uniq _ _ _ h3 (hst i h1), h4]⟩
      · exact .inr hr
  have hE : ∀ o y v, (y, v) ∈ (loop4 f.t.scanAfter m3).east o ↔ InE f.t o y v := by
    intro o y v
    rw [d4.2, d3, d2, c1]
    constructor
    · rintro (((hr | ⟨h1, w, h3, h4⟩) | ⟨i, h1, h2, h3, h4⟩) | hr)
      · simp at hr
      · simp only [Prod.mk.injEq] at h4
        obtain ⟨rfl, rfl⟩ := h4
        exact .inl ⟨List.mem_range.1 h1, hst _ (List.mem_range.1 h1), by simp, h3⟩
      · simp only [Prod.mk.injEq] at h4
        obtain ⟨rfl, rfl⟩ := h4
        exact .inr (.inl ⟨i, List.mem_range.1 h1, by simpa using h2, h3, hst _ (List.mem_range.1 h1), rfl⟩)
      · exact .inr (.inr hr)
    · rintro (⟨h1, h3, h4, h5⟩ | ⟨i, h1, h2, h3, h4, h5⟩ | hr)
      · left; left; right
        obtain ⟨w, rfl⟩ := Option.ne_none_iff_exists'.1 h4
        exact ⟨List.mem_range.2 h1, w, h5, by rw [uniq _ _ _ h3 (hst o h1)]⟩
      · left; right
        exact ⟨i, List.mem_range.2 h1, by simpa using h2, h3, by rw [uniq _ _ _ h4 (hst i h1), h5]⟩
      · exact .inr hr
  refine ⟨⟨fun i => tidy ((loop4 f.t.scanAfter m3).west i), fun i => tidy ((loop4 f.t.scanAfter m3).east i)⟩, ?_, ?_, ?_, ?_, ?_⟩
  · unfold buildScanLineOrders
    simp only [b1, b2, b3]
  · intro o
    apply tidy_sorted
    rintro ⟨y, v⟩ hr ⟨y', v'⟩ hr' he
    simp only at he
    subst he
    rw [hW] at hr hr'
    rw [ai.wFun _ _ _ _ hr hr']
  · intro o
    apply tidy_sorted
    rintro ⟨y, v⟩ hr ⟨y', v'⟩ hr' he
    simp only at he
    subst he
    rw [hE] at hr hr'
    rw [ai.eFun _ _ _ _ hr hr']
  · intro o y v
    simp only
    rw [tidy_mem, hW]
  · intro o y v
    simp only
    rw [tidy_mem, hE]

end Verif.Scan
