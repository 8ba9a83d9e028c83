import Verif.Topo.Loop

namespace Verif.Topo
open Verif.Range
set_option linter.unusedSectionVars false

variable {K : Type} [LinearOrder K] {W : Type} [AddCommGroup W]

theorem increaseX_eq (r : SLRange K) (x : K) (hx : r.x = some x) :
    r.increaseX = ⟨r.lastX, sortActive (takeEvents x (drainActive r.active x) r.events).1,
      (takeEvents x (drainActive r.active x) r.events).2⟩ := by
  unfold SLRange.increaseX; rw [hx]

theorem perm_sum_active (single : Nat → Bool → W) (orient : Nat → Bool) {E : List (OutputEvent K)} {cur : WithBot K}
    {r : SLRange K} (h : RInv E cur r) :
    ((r.active.map fun h => (h.seg, h.enterFirst == orient h.seg)).map fun d => single d.1 d.2).sum =
      (E.map fun e => if act cur e then hcontrib single orient e else 0).sum := by
  have hp := (h.active_perm.map fun h => (h.seg, h.enterFirst == orient h.seg)).map fun d => single d.1 d.2
  rw [hp.sum_eq, List.map_map, List.map_map, sum_filter]
  rfl

theorem range'_split {n k : Nat} {l1 : List Nat} {a : Nat} {l2 : List Nat} (h : List.range' n k = l1 ++ a :: l2) :
    a = n + l1.length ∧ l1.getLast? = if l1 = [] then none else some (a - 1) := by
  have hlen := congrArg List.length h
  simp at hlen
  have h1 : a = n + l1.length := by
    have := congrArg (fun l => l[l1.length]?) h
    simp only [List.getElem?_append_right (le_refl _), Nat.sub_self, List.getElem?_cons_zero] at this
    rw [List.getElem?_range' (by omega)] at this
    simp at this; omega
  refine ⟨h1, ?_⟩
  by_cases hl : l1 = []
  · rw [if_pos hl, hl]; rfl
  · rw [if_neg hl, List.getLast?_eq_getElem?]
    have hpos : 0 < l1.length := List.length_pos_iff.2 hl
    have := congrArg (fun l => l[l1.length - 1]?) h
    simp only [List.getElem?_append_left (by omega : l1.length - 1 < l1.length)] at this
    rw [← this, List.getElem?_range' (by omega)]
    simp; omega

theorem step (single : Nat → Bool → W) (orient : Nat → Bool) (hsingle : ∀ s b, single s (!b) = - single s b)
    (y : K) (E Eo En : List (OutputEvent K)) (hspec : RangeSpec (contribOf single orient) E Eo En)
    (t0 : Topo K W) (w0 wEnd : W) (sw0 : Option Nat) (hg0 : Good single t0)
    (h0 : ∀ e ∈ E, e.connectedAbove = true → ∃ o, t0.openSegs e.segIdx = [o] ∧ t0.positive o = orient e.segIdx)
    (hstart : ∀ e ∈ E, e.connectedAbove = true → ∃ p b, t0.pointIdx ⟨(t0.openSegs e.segIdx).headD 0, true⟩ = some p ∧
      t0.points[p]? = some b ∧ b.2 < y)
    (cur : WithBot K) (s : LoopState K W) (hOf nOf : Nat → Nat)
    (h : LInv single orient y E Eo En t0 w0 wEnd sw0 cur s hOf nOf) (x : K) (hx : s.r.x = some x) :
    ∃ s' hOf' nOf', processPoint single orient y x s = some s' ∧
      LInv single orient y E Eo En t0 w0 wEnd sw0 x s' hOf' nOf' := by
  have hE := hspec.sorted
  have hnd := hspec.nodup
  have hcur := (h.r.x_spec hE x hx).1
  have gap := fun e he => RInv_gap hE h.r x hx e he
  have hrx : RInv E x s.r.increaseX := by rw [increaseX_eq _ x hx]; exact h.r.step hE x hx _
  -- consequences of the gap
  have g_le : ∀ e ∈ E, ∀ z, (z = e.x0 ∨ z = e.x1) →
      ((z : WithBot K) ≤ (x : WithBot K) ↔ (z : WithBot K) ≤ cur ∨ z = x) := by
    intro e he z hz
    constructor
    · intro hzx
      rcases gap e he z hz with q | q
      · exact .inl q
      · exact .inr (le_antisymm (WithBot.coe_le_coe.1 hzx) q)
    · rintro (q | q)
      · exact le_trans q hcur.le
      · rw [q]
  have g_lt : ∀ e ∈ E, ∀ z, (z = e.x0 ∨ z = e.x1) →
      (cur < (z : WithBot K) ↔ z = x ∨ (x : WithBot K) < (z : WithBot K)) := by
    intro e he z hz
    rw [← not_le, ← not_le, g_le e he z hz]
    constructor
    · intro q; by_cases e1 : z = x
      · exact .inl e1
      · right; rintro (q1 | q1)
        · exact q q1
        · exact e1 q1
    · rintro (q | q) q2
      · rw [q] at q2; exact absurd hcur (not_lt.2 q2)
      · exact q (.inl q2)
  have g_ne : ∀ z : K, z = x → ¬ (z : WithBot K) ≤ cur := by
    intro z hz; rw [hz]; exact not_le.2 hcur
  -- the events seen from above / below
  have hEo : ∀ e, e ∈ Eo ↔ e ∈ E ∧ e.connectedAbove = true := by
    intro e; rw [hspec.olds.mem_iff, List.mem_filter]
  have hEn : ∀ e, e ∈ En ↔ e ∈ E ∧ e.connectedBelow = true := by
    intro e; rw [hspec.news.mem_iff, List.mem_filter]
  obtain ⟨us0, ds0, hseg, hup, hdown⟩ := h.r.segmentsAtX hE
    (fun e he ha => hspec.oldSome e ((hEo e).2 ⟨he, ha⟩)) (fun e he ha => hspec.newSome e ((hEn e).2 ⟨he, ha⟩)) x hx
  have hus : us0 = (Eo.filter fun e => decide (e.x0 = x)).map OutputEvent.segIdx := by
    have := sortedBy_unique hup (q := (Eo.filter fun e => decide (e.x0 = x)).map fun e => (e.segIdx, e.oldSweepIdx.getD 0)) (by
        refine List.Perm.map _ ?_
        refine (hspec.olds.filter _).trans ?_
        rw [List.filter_filter]
        have : (fun e : OutputEvent K => decide (e.x0 = x) && e.connectedAbove) = fun e => e.connectedAboveAt x := by
          funext e; simp [OutputEvent.connectedAboveAt, eq_comm]
        rw [this])
      (by rw [List.pairwise_map]; exact hspec.oldIdx.filter _)
    rw [this, List.map_map]; rfl
  have hds : ds0 = (En.filter fun e => decide (e.x1 = x)).map OutputEvent.segIdx := by
    have := sortedBy_unique hdown (q := (En.filter fun e => decide (e.x1 = x)).map fun e => (e.segIdx, e.sweepIdx.getD 0)) (by
        refine List.Perm.map _ ?_
        refine (hspec.news.filter _).trans ?_
        rw [List.filter_filter]
        have : (fun e : OutputEvent K => decide (e.x1 = x) && e.connectedBelow) = fun e => e.connectedBelowAt x := by
          funext e; simp [OutputEvent.connectedBelowAt, eq_comm]
        rw [this])
      (by rw [List.pairwise_map]; exact hspec.newIdx.filter _)
    rw [this, List.map_map]; rfl
  have hEoNd : (Eo.map OutputEvent.segIdx).Nodup := by
    rw [(hspec.olds.map _).nodup_iff]; exact ((List.filter_sublist).map _).nodup hnd
  have hEnNd : (En.map OutputEvent.segIdx).Nodup := by
    rw [(hspec.news.map _).nodup_iff]; exact ((List.filter_sublist).map _).nodup hnd
  have husNd : us0.Nodup := by rw [hus]; exact ((List.filter_sublist).map _).nodup hEoNd
  have hdsNd : ds0.Nodup := by rw [hds]; exact ((List.filter_sublist).map _).nodup hEnNd
  -- membership tests
  have m_us : ∀ e ∈ E, (e.segIdx ∈ us0 ↔ e.connectedAbove = true ∧ e.x0 = x) := by
    intro e he
    rw [hus]; simp only [List.mem_map, List.mem_filter, decide_eq_true_eq, hEo]
    constructor
    · rintro ⟨e', ⟨⟨h1, h2⟩, h3⟩, h4⟩
      have : e' = e := inj_of_nodup _ _ hnd h1 he h4
      subst this; exact ⟨h2, h3⟩
    · rintro ⟨h2, h3⟩; exact ⟨e, ⟨⟨he, h2⟩, h3⟩, rfl⟩
  have m_ds : ∀ e ∈ E, (e.segIdx ∈ ds0 ↔ e.connectedBelow = true ∧ e.x1 = x) := by
    intro e he
    rw [hds]; simp only [List.mem_map, List.mem_filter, decide_eq_true_eq, hEn]
    constructor
    · rintro ⟨e', ⟨⟨h1, h2⟩, h3⟩, h4⟩
      have : e' = e := inj_of_nodup _ _ hnd h1 he h4
      subst this; exact ⟨h2, h3⟩
    · rintro ⟨h2, h3⟩; exact ⟨e, ⟨⟨he, h2⟩, h3⟩, rfl⟩
  have m_ha : ∀ e ∈ E, (e.segIdx ∈ s.r.active.map HFrag.seg ↔ act cur e = true) :=
    fun e he => mem_active_iff hnd h.r e he
  have m_gs : ∀ e ∈ E, (e.segIdx ∈ s.r.increaseX.active.map HFrag.seg ↔ act x e = true) :=
    fun e he => mem_active_iff hnd hrx e he
  have us_mem : ∀ a ∈ us0, ∃ e ∈ E, e.segIdx = a ∧ e.connectedAbove = true ∧ e.x0 = x := by
    intro a ha
    rw [hus] at ha
    simp only [List.mem_map, List.mem_filter, decide_eq_true_eq, hEo] at ha
    obtain ⟨e, ⟨⟨h1, h2⟩, h3⟩, h4⟩ := ha
    exact ⟨e, h1, h4, h2, h3⟩
  have ds_mem : ∀ a ∈ ds0, ∃ e ∈ E, e.segIdx = a ∧ e.connectedBelow = true ∧ e.x1 = x := by
    intro a ha
    rw [hds] at ha
    simp only [List.mem_map, List.mem_filter, decide_eq_true_eq, hEn] at ha
    obtain ⟨e, ⟨⟨h1, h2⟩, h3⟩, h4⟩ := ha
    exact ⟨e, h1, h4, h2, h3⟩
  -- sums
  have hcumx : (csum (contribOf single orient) E fun e => !e.connectedAbove && decide ((e.x0 : WithBot K) ≤ (x : WithBot K))) =
      csum (contribOf single orient) E fun e => !e.connectedBelow && decide ((e.x1 : WithBot K) ≤ (x : WithBot K)) := by
    rw [csum_add (contribOf single orient) E _ (fun e => !e.connectedAbove && decide ((e.x0 : WithBot K) ≤ cur))
      (fun e => !e.connectedAbove && decide (e.x0 = x)) (by
        intro e he
        exact bool_split _ _ _ _ (g_le e he e.x0 (.inl rfl)) (fun hh => g_ne e.x0 hh.2 hh.1)),
      csum_add (contribOf single orient) E (fun e => !e.connectedBelow && decide ((e.x1 : WithBot K) ≤ (x : WithBot K)))
        (fun e => !e.connectedBelow && decide ((e.x1 : WithBot K) ≤ cur))
      (fun e => !e.connectedBelow && decide (e.x1 = x)) (by
        intro e he
        exact bool_split _ _ _ _ (g_le e he e.x1 (.inr rfl)) (fun hh => g_ne e.x1 hh.2 hh.1)), h.cum]
    congr 1
    have hb := hspec.balance x
    rw [sum_filter, sum_filter] at hb
    exact hb
  have hAx : (csum (contribOf single orient) E fun e => e.connectedAbove && decide ((e.x0 : WithBot K) ≤ (x : WithBot K))) =
      (csum (contribOf single orient) E fun e => e.connectedAbove && decide ((e.x0 : WithBot K) ≤ cur)) +
      ((Eo.filter fun e => decide (e.x0 = x)).map (contribOf single orient)).sum := by
    rw [sum_perm_filter _ E Eo (fun e => e.connectedAbove) _ hspec.olds]
    apply csum_add
    intro e he
    exact bool_split _ _ _ _ (g_le e he e.x0 (.inl rfl)) (fun hh => g_ne e.x0 hh.2 hh.1)
  have hBx : (csum (contribOf single orient) E fun e => e.connectedBelow && decide ((e.x1 : WithBot K) ≤ (x : WithBot K))) =
      (csum (contribOf single orient) E fun e => e.connectedBelow && decide ((e.x1 : WithBot K) ≤ cur)) +
      ((En.filter fun e => decide (e.x1 = x)).map (contribOf single orient)).sum := by
    rw [sum_perm_filter _ E En (fun e => e.connectedBelow) _ hspec.news]
    apply csum_add
    intro e he
    exact bool_split _ _ _ _ (g_le e he e.x1 (.inr rfl)) (fun hh => g_ne e.x1 hh.2 hh.1)
  -- splitting the two orders at x
  have splitO : (Eo.filter fun e => decide (cur < (e.x0 : WithBot K))) =
      (Eo.filter fun e => decide (e.x0 = x)) ++ Eo.filter fun e => decide ((x : WithBot K) < (e.x0 : WithBot K)) := by
    rw [← filter_split Eo OutputEvent.x0 hspec.oldX]
    · apply List.filter_congr
      intro e he
      have := g_lt e ((hEo e).1 he).1 e.x0 (.inl rfl)
      rw [← Bool.decide_or]
      simp only [this]
    · intro a _ b _ ha hb
      simp only [decide_eq_true_eq] at ha hb
      rw [ha]; exact WithBot.coe_lt_coe.1 hb
    · rintro a _ ⟨ha, hb⟩
      simp only [decide_eq_true_eq] at ha hb
      rw [ha] at hb; exact lt_irrefl _ hb
  have splitN : (En.filter fun e => decide ((e.x1 : WithBot K) ≤ (x : WithBot K))) =
      (En.filter fun e => decide ((e.x1 : WithBot K) ≤ cur)) ++ En.filter fun e => decide (e.x1 = x) := by
    rw [← filter_split En OutputEvent.x1 hspec.newX]
    · apply List.filter_congr
      intro e he
      have := g_le e ((hEn e).1 he).1 e.x1 (.inr rfl)
      rw [← Bool.decide_or]
      simp only [this]
    · intro a _ b _ ha hb
      simp only [decide_eq_true_eq] at ha hb
      rw [hb]; exact WithBot.coe_lt_coe.1 (lt_of_le_of_lt ha hcur)
    · rintro a _ ⟨ha, hb⟩
      simp only [decide_eq_true_eq] at ha hb
      exact g_ne _ hb ha
  -- the winding above, across the ups
  have hwO := h.wO
  rw [splitO, List.map_append] at hwO
  obtain ⟨m, wU, wO'⟩ := hwO.split
  have oInfo : ∀ e ∈ E, e.connectedAbove = true → ((t0.openSegs e.segIdx).headD 0) < t0.n ∧
      t0.origSeg ((t0.openSegs e.segIdx).headD 0) = e.segIdx ∧
      t0.positive ((t0.openSegs e.segIdx).headD 0) = orient e.segIdx := by
    intro e he ha
    obtain ⟨o, ho, hpo⟩ := h0 e he ha
    have := (hg0.openIff o e.segIdx).1 (by rw [ho]; simp)
    rw [ho]
    exact ⟨this.1, this.2.1, hpo⟩
  have hm : m = w0 + csum (contribOf single orient) E fun e => e.connectedAbove && decide ((e.x0 : WithBot K) ≤ (x : WithBot K)) := by
    have := wU.sum (fun i => single (t0.origSeg i) (t0.positive i)) (by
      intro i hi
      simp only [List.mem_map, List.mem_filter] at hi
      obtain ⟨e, ⟨he, _⟩, rfl⟩ := hi
      have he' := (hEo e).1 he
      exact hg0.sgn _ (oInfo e he'.1 he'.2).1)
    rw [this, hAx, add_assoc]
    congr 2
    rw [List.map_map]
    congr 1
    apply List.map_congr_left
    intro e he
    have he' := (hEo e).1 (List.mem_filter.1 he).1
    obtain ⟨_, b, c⟩ := oInfo e he'.1 he'.2
    simp only [Function.comp_apply, b, c, contribOf]
  subst hm
  -- run the iteration
  have hdsum : ((ds0.map fun a => (a, orient a)).map fun d => single d.1 d.2).sum =
      ((En.filter fun e => decide (e.x1 = x)).map (contribOf single orient)).sum := by
    rw [hds, List.map_map, List.map_map]; rfl
  have hab := above_eq_below single orient hsingle E x hcumx
  obtain ⟨t', w', fD, fG, hrun, R, hw'⟩ := processPoint_spec single orient y x s us0 ds0 hOf
    (fun a => (t0.openSegs a).headD 0)
    (fun a => (s.t.openSegs a).tail)
    (fun a => (if a ∈ s.r.active.map HFrag.seg then (s.t.openSegs a).tail else s.t.openSegs a).tail)
    (s.r.active.map HFrag.seg) (s.r.increaseX.active.map fun h => (h.seg, h.enterFirst == orient h.seg)) rfl rfl
    h.good hseg (active_nodup hnd h.r) husNd hdsNd
    (by rw [List.map_map]; exact active_nodup hnd hrx)
    (by
      intro a ha
      obtain ⟨e, he, rfl, hact⟩ := active_seg_mem h.r a ha
      rw [h.openE e he, hact]; simp)
    (by
      intro a ha
      obtain ⟨e, he, rfl, q1, q2⟩ := us_mem a ha
      have hlt : cur < (e.x0 : WithBot K) := by rw [q2]; exact hcur
      have ho := h.openE e he
      rw [if_pos (⟨q1, hlt⟩ : e.connectedAbove = true ∧ cur < (e.x0 : WithBot K))] at ho
      by_cases hact : act cur e = true
      · rw [if_pos ((m_ha e he).2 hact), ho, if_pos hact]; simp
      · rw [if_neg (fun hh => hact ((m_ha e he).1 hh)), ho, if_neg hact]; simp)
    _ _ h.wH
    (by
      have : us0.map (fun a => (t0.openSegs a).headD 0) =
          (Eo.filter fun e => decide (e.x0 = x)).map fun e => (t0.openSegs e.segIdx).headD 0 := by
        rw [hus, List.map_map]; rfl
      rw [this]
      refine wU.congr ?_
      intro i hi
      simp only [List.mem_map, List.mem_filter] at hi
      obtain ⟨e, ⟨he, _⟩, rfl⟩ := hi
      have he' := (hEo e).1 he
      exact h.winding_old _ (oInfo e he'.1 he'.2).1)
    (by
      rw [hdsum, perm_sum_active single orient hrx, h.wSum, hab, hBx]
      abel)
    h.sw_lt
  have hgsfst : (s.r.increaseX.active.map fun h => (h.seg, h.enterFirst == orient h.seg)).map Prod.fst =
      s.r.increaseX.active.map HFrag.seg := by rw [List.map_map]; rfl
  have hdsfst : (ds0.map fun a => (a, orient a)).map Prod.fst = ds0 := by simp [Function.comp_def]
  have hdslen : (ds0.map fun a => (a, orient a)).length = ds0.length := by simp
  have outs_d := R.outs_d
  have outs_g := R.outs_g
  rw [hgsfst] at outs_g
  rw [hdsfst, hdslen] at outs_d
  have R_n := R.n_eq
  rw [hdslen] at R_n outs_g
  have lineD := R.lineD
  have lineG := R.lineG
  rw [hdslen] at lineD lineG
  have west_d := R.west_d
  rw [hdslen] at west_d
  set gs := s.r.increaseX.active.map fun h => (h.seg, h.enterFirst == orient h.seg) with hgs
  have hgslen : gs.length = s.r.increaseX.active.length := by simp [hgs]
  have fD_r : ∀ a ∈ ds0, s.t.n ≤ fD a ∧ fD a < s.t.n + ds0.length := by
    intro a ha
    have : fD a ∈ ds0.map fD := List.mem_map_of_mem ha
    rw [outs_d, List.mem_range'_1] at this
    exact this
  have fG_r : ∀ a ∈ s.r.increaseX.active.map HFrag.seg, s.t.n + ds0.length ≤ fG a ∧ fG a < t'.n := by
    intro a ha
    have : fG a ∈ (s.r.increaseX.active.map HFrag.seg).map fG := List.mem_map_of_mem ha
    rw [outs_g, List.mem_range'_1] at this
    omega
  have hptlen : t'.points[s.t.points.length]? = some (x, y) := by
    rw [R.points]; simp
  have pts_old : ∀ (p : Nat) (q : K × K), s.t.points[p]? = some q → t'.points[p]? = some q := by
    intro p q hp
    rw [R.points, List.getElem?_append_left]
    · exact hp
    · rw [List.getElem?_eq_some_iff] at hp; exact hp.1
  -- WestOk is stable, and holds for the new downs
  have east_stable : ∀ j, (∀ i, j = some i → i < s.t.n) → eastOf t' j = eastOf s.t j := by
    intro j hj
    cases j with
    | none => rfl
    | some i => simp only [eastOf]; rw [R.winding_old i (hj i rfl)]
  have west_stable : ∀ i < s.t.n, WestOk s.t i → WestOk t' i := by
    intro i hi hw
    unfold WestOk at *
    rw [R.winding_old i hi, R.west_old i hi, hw, east_stable]
    intro j hj
    have := h.good.west i hi j hj
    omega
  have wline_idx : ∀ (n k : Nat) (u v : W), WLine t'.winding u (List.range' n k) v → ∀ i, n ≤ i → i < n + k →
      (t'.winding i).cw = if i = n then u else (t'.winding (i - 1)).ccw := by
    intro n k
    induction k generalizing n with
    | zero => intro u v _ i h1 h2; omega
    | succ k ih =>
      intro u v hl i h1 h2
      rw [List.range'_succ] at hl
      by_cases hi : i = n
      · subst hi; rw [if_pos rfl]; exact hl.1
      · have := ih (n + 1) _ v hl.2 i (by omega) (by omega)
        rw [this, if_neg hi]
        by_cases h3 : i = n + 1
        · rw [if_pos h3, h3]; simp
        · rw [if_neg h3]
  have west_new : ∀ i, s.t.n ≤ i → i < s.t.n + ds0.length → WestOk t' i := by
    intro i h1 h2
    unfold WestOk
    rw [west_d i h1 h2, wline_idx _ _ _ _ lineD i h1 h2]
    by_cases hi : i = s.t.n
    · rw [if_pos hi, if_pos hi, east_stable _ h.sw_lt, h.sw_w]
    · rw [if_neg hi, if_neg hi]; rfl
  have wline_last : ∀ (n k : Nat) (u v : W), WLine t'.winding u (List.range' n k) v →
      ∀ z, (List.range' n k).getLast? = some z → v = (t'.winding z).ccw := by
    intro n k
    induction k generalizing n with
    | zero => intro u v _ z hz; simp at hz
    | succ k ih =>
      intro u v hl z hz
      rw [List.range'_succ] at hl hz
      cases k with
      | zero => simp at hz hl; rw [← hz]; exact hl.2.symm
      | succ k =>
        rw [List.range'_succ, List.getLast?_cons_cons, ← List.range'_succ] at hz
        exact ih (n + 1) _ v hl.2 z hz
  have hwest : w' = eastOf t' (((List.range' s.t.n ds0.length).getLast?).or s.scanWest) := by
    cases hq : (List.range' s.t.n ds0.length).getLast? with
    | none =>
      simp only [Option.none_or]
      have hl0 : ds0.length = 0 := by
        rw [List.getLast?_eq_none_iff] at hq; simpa using hq
      rw [hl0] at lineD
      have : s.winding = w' := by simpa [WLine] using lineD
      rw [← this, east_stable _ h.sw_lt]
      exact h.sw_w
    | some z =>
      simp only [Option.some_or, eastOf]
      exact wline_last _ _ _ _ lineD z hq
  refine ⟨_, fG, fun a => if a ∈ ds0 then fD a else nOf a, hrun, ?_⟩
  have nOf_old : ∀ e ∈ E, (e.x1 : WithBot K) ≤ cur → (if e.segIdx ∈ ds0 then fD e.segIdx else nOf e.segIdx) = nOf e.segIdx := by
    intro e he hle
    rw [if_neg]
    intro hc
    exact g_ne _ ((m_ds e he).1 hc).2 hle
  have hN : ((En.filter fun e => decide ((e.x1 : WithBot K) ≤ (x : WithBot K))).map
      fun e => if e.segIdx ∈ ds0 then fD e.segIdx else nOf e.segIdx) =
      ((En.filter fun e => decide ((e.x1 : WithBot K) ≤ cur)).map fun e => nOf e.segIdx) ++
        List.range' s.t.n ds0.length := by
    rw [splitN, List.map_append]
    congr 1
    · apply List.map_congr_left
      intro e he
      simp only [List.mem_filter, decide_eq_true_eq, hEn] at he
      exact nOf_old e he.1.1 he.2
    · rw [← outs_d, hds, List.map_map]
      apply List.map_congr_left
      intro e he
      simp only [List.mem_filter, decide_eq_true_eq, hEn] at he
      have : e.segIdx ∈ ds0 := (m_ds e he.1.1).2 ⟨he.1.2, he.2⟩
      rw [hds] at this
      simp only [this, if_true, Function.comp_apply]
  have horiz_old : ∀ e i a b, i < s.t.n → HorizOf orient s.t y e i a b → HorizOf orient t' y e i a b := by
    rintro e i a b hi ⟨h1, h2, h3, h4, h5, p, q', k1, k2, k3, k4⟩
    exact ⟨h1, h2, h3, by rw [R.orig_old i hi]; exact h4, by rw [R.positive_old i hi]; exact h5,
      p, q', R.pidx_old _ _ k1, R.pidx_old _ _ k2, pts_old _ _ k3, pts_old _ _ k4⟩
  have horiz_new : ∀ e ∈ E, act cur e = true →
      ∃ c : K, (c : WithBot K) = cur ∧ HorizOf orient t' y e (hOf e.segIdx) c x := by
    intro e he ha
    obtain ⟨_, ho, k5, k6, p, c, k1, k2, k3⟩ := h.open_h e he ha
    have ha' := ha
    unfold act at ha'
    rw [decide_eq_true_eq] at ha'
    refine ⟨c, k3, ?_, ?_, ?_, ?_, ?_, p, s.t.points.length, R.pidx_old _ _ k1, R.pidx_h _ ((m_ha e he).2 ha),
      pts_old _ _ k2, hptlen⟩
    · rw [← k3] at ha'; exact WithBot.coe_le_coe.1 ha'.1
    · rw [← k3] at hcur; exact WithBot.coe_lt_coe.1 hcur
    · rcases gap e he e.largerX (by unfold OutputEvent.largerX; exact max_choice _ _) with q | q
      · exact absurd ha'.2 (not_lt.2 q)
      · exact q
    · rw [R.orig_old _ ho]; exact k5
    · rw [R.positive_old _ ho]; exact k6
  constructor
  · exact hrx
  · exact R.good
  · have := h.n_le; simp only; omega
  · -- openE
    intro e he
    simp only
    rw [R.opens, hgsfst, hdsfst]
    have q0 := g_lt e he e.x0 (.inl rfl)
    have q1 := g_le e he e.x1 (.inr rfl)
    have ho := h.openE e he
    -- the queue without what is closed at x
    have hbase : (if e.segIdx ∈ us0 then
        (if e.segIdx ∈ s.r.active.map HFrag.seg then (s.t.openSegs e.segIdx).tail else s.t.openSegs e.segIdx).tail
        else if e.segIdx ∈ s.r.active.map HFrag.seg then (s.t.openSegs e.segIdx).tail else s.t.openSegs e.segIdx) =
        (if e.connectedAbove = true ∧ (x : WithBot K) < (e.x0 : WithBot K) then [(t0.openSegs e.segIdx).headD 0] else []) ++
        (if e.connectedBelow = true ∧ (e.x1 : WithBot K) ≤ cur then [nOf e.segIdx] else []) := by
      have hq : (if e.segIdx ∈ s.r.active.map HFrag.seg then (s.t.openSegs e.segIdx).tail else s.t.openSegs e.segIdx) =
          (if e.connectedAbove = true ∧ cur < (e.x0 : WithBot K) then [(t0.openSegs e.segIdx).headD 0] else []) ++
          (if e.connectedBelow = true ∧ (e.x1 : WithBot K) ≤ cur then [nOf e.segIdx] else []) := by
        by_cases hact : act cur e = true
        · rw [if_pos ((m_ha e he).2 hact), ho, if_pos hact]; simp
        · rw [if_neg (fun hh => hact ((m_ha e he).1 hh)), ho, if_neg hact]; simp
      rw [hq]
      by_cases hu : e.connectedAbove = true ∧ e.x0 = x
      · rw [if_pos ((m_us e he).2 hu)]
        have c1 : e.connectedAbove = true ∧ cur < (e.x0 : WithBot K) := ⟨hu.1, q0.2 (.inl hu.2)⟩
        have c2 : ¬ (e.connectedAbove = true ∧ (x : WithBot K) < (e.x0 : WithBot K)) := by
          rintro ⟨_, hh⟩; rw [hu.2] at hh; exact lt_irrefl _ hh
        rw [if_pos c1, if_neg c2]; simp
      · rw [if_neg (fun hh => hu ((m_us e he).1 hh))]
        congr 1
        by_cases ha : e.connectedAbove = true
        · have hne : ¬ e.x0 = x := fun hh => hu ⟨ha, hh⟩
          simp only [hne, false_or] at q0
          simp only [ha, q0]
        · simp [ha]
    rw [hbase]
    rw [List.append_assoc, List.append_assoc, List.append_assoc]
    congr 1
    · by_cases ha : act x e = true
      · rw [if_pos ha, if_pos ((m_gs e he).2 ha)]
      · rw [if_neg ha, if_neg (fun hh => ha ((m_gs e he).1 hh))]
    · congr 1
      by_cases hb : e.connectedBelow = true
      · by_cases hle : (e.x1 : WithBot K) ≤ cur
        · have hn : ¬ e.segIdx ∈ ds0 := fun hh => g_ne _ ((m_ds e he).1 hh).2 hle
          simp [hb, hle, hn, q1.2 (.inl hle)]
        · by_cases hxx : e.x1 = x
          · have hn : e.segIdx ∈ ds0 := (m_ds e he).2 ⟨hb, hxx⟩
            simp [hb, hle, hn, q1.2 (.inr hxx)]
          · have hn : ¬ e.segIdx ∈ ds0 := fun hh => hxx ((m_ds e he).1 hh).2
            have hnle : ¬ (e.x1 : WithBot K) ≤ (x : WithBot K) := by rw [q1]; exact fun hh => hh.elim hle hxx
            rw [if_neg (fun hh => hle hh.2), if_neg hn, if_neg (fun hh => hnle hh.2)]; rfl
      · have hn : ¬ e.segIdx ∈ ds0 := fun hh => hb ((m_ds e he).1 hh).1
        simp [hb, hn]
  · intro a ha
    simp only
    rw [R.opens, hgsfst, hdsfst]
    have n1 : a ∉ s.r.increaseX.active.map HFrag.seg := by
      intro hc; obtain ⟨e, he, h1, _⟩ := active_seg_mem hrx a hc; exact ha e he h1
    have n2 : a ∉ s.r.active.map HFrag.seg := by
      intro hc; obtain ⟨e, he, h1, _⟩ := active_seg_mem h.r a hc; exact ha e he h1
    have n3 : a ∉ us0 := by
      intro hc; obtain ⟨e, he, h1, _⟩ := us_mem a hc; exact ha e he h1
    have n4 : a ∉ ds0 := by
      intro hc; obtain ⟨e, he, h1, _⟩ := ds_mem a hc; exact ha e he h1
    simp only [n1, n2, n3, n4, if_false, List.nil_append, List.append_nil]
    exact h.openOther a ha
  · intro i hi; simp only; rw [R.winding_old i (by have := h.n_le; omega), h.winding_old i hi]
  · intro i hi; simp only; rw [R.west_old i (by have := h.n_le; omega), h.west_old i hi]
  · intro i hi; simp only; rw [R.positive_old i (by have := h.n_le; omega), h.positive_old i hi]
  · intro i hi; simp only; rw [R.orig_old i (by have := h.n_le; omega), h.orig_old i hi]
  · intro hh p hp; exact R.pidx_old _ _ (h.pidx_old hh p hp)
  · obtain ⟨ps, e1, e2⟩ := h.points_old
    refine ⟨ps ++ [(x, y)], ?_, ?_⟩
    · simp only; rw [R.points, e1, List.append_assoc]
    · intro q hq
      rw [List.mem_append, List.mem_singleton] at hq
      rcases hq with hq | hq
      · exact e2 q hq
      · rw [hq]
  · -- wH
    simp only
    rw [outs_g]; exact lineG
  · exact wO'
  · -- wN
    simp only
    rw [hN]
    refine WLine.append (m := s.winding) ?_ lineD
    refine h.wN.congr ?_
    intro i hi
    simp only [List.mem_map, List.mem_filter, decide_eq_true_eq, hEn] at hi
    obtain ⟨e, ⟨⟨he1, he2⟩, he3⟩, rfl⟩ := hi
    exact R.winding_old _ (h.new_n e he1 he2 he3).2.1
  · simp only; rw [hw', h.wSum, hdsum, hBx, add_assoc]
  · exact hcumx
  · intro j hj
    simp only at hj ⊢
    cases hq : (List.range' s.t.n ds0.length).getLast? with
    | none => rw [hq] at hj; simp at hj; have := h.sw_lt j hj; omega
    | some z =>
      rw [hq] at hj; simp at hj
      have := List.mem_of_getLast? hq
      rw [List.mem_range'_1] at this
      omega
  · exact hwest
  · -- lastDown
    intro hl e he
    simp only at hl
    rw [Option.or_eq_none_iff, List.getLast?_eq_none_iff] at hl
    have hl0 : ds0 = [] := by
      have : (List.range' s.t.n ds0.length).length = 0 := by rw [hl.1]; rfl
      rw [List.length_range'] at this
      exact List.length_eq_zero_iff.1 this
    have h1 := h.lastDown hl.2 e he
    have he' := (hEn e).1 he
    rcases (g_lt e he'.1 e.x1 (.inr rfl)).1 h1 with q | q
    · have := (m_ds e he'.1).2 ⟨he'.2, q⟩
      rw [hl0] at this; simp at this
    · exact q
  · -- new_n
    intro e he hb hle
    simp only
    rcases (g_le e he e.x1 (.inr rfl)).1 hle with q | q
    · rw [nOf_old e he q]
      obtain ⟨k1, k2, k3, k4, p, k5, k6⟩ := h.new_n e he hb q
      refine ⟨k1, by omega, by rw [R.positive_old _ k2]; exact k3, west_stable _ k2 k4, p, R.pidx_old _ _ k5,
        pts_old p _ k6⟩
    · have hmm : e.segIdx ∈ ds0 := (m_ds e he).2 ⟨hb, q⟩
      rw [if_pos hmm]
      have hr := fD_r _ hmm
      have hn := h.n_le
      refine ⟨by omega, by omega, ?_, west_new _ hr.1 hr.2, s.t.points.length, ?_, by rw [hptlen, q]⟩
      · exact (R.orig_d _ (orient e.segIdx) (List.mem_map.2 ⟨_, hmm, rfl⟩)).2
      · exact (R.pidx_new _ hr.1 (by omega)).1
  · -- closed_o
    intro e he ha hle
    simp only
    rcases (g_le e he e.x0 (.inl rfl)).1 hle with q | q
    · obtain ⟨p, k1, k2⟩ := h.closed_o e he ha q
      exact ⟨p, R.pidx_old _ _ k1, pts_old p _ k2⟩
    · refine ⟨s.t.points.length, R.pidx_u _ ((m_us e he).2 ⟨ha, q⟩), by rw [hptlen, q]⟩
  · -- open_h
    intro e he ha
    simp only
    have hmm := (m_gs e he).2 ha
    have hr := fG_r _ hmm
    have hn := h.n_le
    have hfr : frag e ∈ s.r.increaseX.active := by
      rw [hrx.active_perm.mem_iff]
      exact List.mem_map_of_mem (List.mem_filter.2 ⟨he, ha⟩)
    have hog := R.orig_g e.segIdx (decide (e.x0 < e.x1) == orient e.segIdx) (List.mem_map.2 ⟨_, hfr, rfl⟩)
    exact ⟨by omega, hr.2, hog.1, hog.2, s.t.points.length, x, (R.pidx_new _ (by omega) hr.2).1, hptlen, rfl⟩
  · -- kinds
    intro i h1 h2
    simp only at h2 ⊢
    by_cases q : i < s.t.n
    · rcases h.kinds i h1 q with ⟨e, he, hb, hle, hi⟩ | ⟨e, he, a, b, hh⟩ | ⟨e, he, ha, hi⟩
      · left
        exact ⟨e, he, hb, (g_le e he e.x1 (.inr rfl)).2 (.inl hle), by rw [nOf_old e he hle]; exact hi⟩
      · right; left
        exact ⟨e, he, a, b, horiz_old e i a b q hh⟩
      · right; left
        obtain ⟨c, _, hc⟩ := horiz_new e he ha
        exact ⟨e, he, c, x, hi ▸ hc⟩
    · by_cases q2 : i < s.t.n + ds0.length
      · left
        have hm : i ∈ ds0.map fD := by rw [outs_d, List.mem_range'_1]; omega
        obtain ⟨a, ha, rfl⟩ := List.mem_map.1 hm
        obtain ⟨e, he, rfl, hb, hxx⟩ := ds_mem a ha
        exact ⟨e, he, hb, by rw [hxx], by rw [if_pos ha]⟩
      · right; right
        have hm : i ∈ (s.r.increaseX.active.map HFrag.seg).map fG := by
          rw [outs_g, List.mem_range'_1]; omega
        obtain ⟨a, ha, rfl⟩ := List.mem_map.1 hm
        obtain ⟨e, he, rfl, hact⟩ := active_seg_mem hrx a ha
        exact ⟨e, he, hact, rfl⟩
  · -- cover
    intro e he z z1 z2 z3
    simp only
    by_cases hz : (z : WithBot K) < cur
    · obtain ⟨i, a, b, h1, h2, h3, h4, h5⟩ := h.cover e he z z1 z2 hz
      exact ⟨i, a, b, h1, by omega, h3, h4, horiz_old e i a b h2 h5⟩
    · have hz := not_lt.1 hz
      have ha : act cur e = true := by
        unfold act
        rw [decide_eq_true_eq]
        constructor
        · have hgap := gap e he e.smallerX (by unfold OutputEvent.smallerX; exact min_choice _ _)
          rcases hgap with q | q
          · exact q
          · exact absurd (WithBot.coe_lt_coe.1 z3) (not_lt.2 (le_trans q z1))
        · exact lt_of_le_of_lt hz (WithBot.coe_lt_coe.2 z2)
      obtain ⟨c, hc, hh⟩ := horiz_new e he ha
      have ho := h.open_h e he ha
      refine ⟨_, c, x, ho.1, by omega, ?_, WithBot.coe_lt_coe.1 z3, hh⟩
      rw [← hc] at hz; exact WithBot.coe_le_coe.1 hz
  · -- shape
    simp only
    obtain ⟨B, hB1, hB2, hB3⟩ := h.shape
    obtain ⟨B', hB1', hB2', hB3'⟩ := hB1.step h.good R hB2
      (by
        intro a ha
        obtain ⟨e, he, rfl, hact⟩ := active_seg_mem h.r a ha
        obtain ⟨_, _, _, _, p, c, k1, k2, _⟩ := h.open_h e he hact
        exact ⟨p, c, k1, k2⟩)
      (by
        intro a ha
        obtain ⟨e, he, rfl, q1, q2⟩ := us_mem a ha
        obtain ⟨p, b, k1, k2, k3⟩ := hstart e he q1
        obtain ⟨ps, hps, _⟩ := h.points_old
        refine ⟨p, b, h.pidx_old _ _ k1, ?_, k3⟩
        rw [hps, List.getElem?_append_left (hg0.ptLt _ _ k1).1]; exact k2)
      (by rw [hdslen]; exact hwest) hB3
    rw [hdslen] at hB3'
    exact ⟨B', hB1', by rw [hB2', outs_g, hdslen], hB3'⟩
  · -- westN
    intro l1 a l2 hsp
    simp only at hsp ⊢
    rw [hN] at hsp
    rw [List.append_eq_append_iff] at hsp
    rcases hsp with ⟨l1', e1, e2⟩ | ⟨l1', e1, e2⟩
    · obtain ⟨r1, r2⟩ := range'_split e2
      have hlen := congrArg List.length e2
      simp at hlen
      rw [west_d a (by omega) (by omega), e1, List.getLast?_append, r2, h.swN]
      by_cases hl : l1' = []
      · subst hl; simp at r1; simp [r1]
      · have : 0 < l1'.length := List.length_pos_iff.2 hl
        rw [if_neg (by omega), if_neg hl]; simp
    · cases l1' with
      | nil =>
        simp at e1 e2
        have e2' : List.range' s.t.n ds0.length = [] ++ a :: l2 := by rw [← e2]; rfl
        obtain ⟨r1, r2⟩ := range'_split e2'
        have hlen := congrArg List.length e2'
        simp at hlen
        simp at r1
        rw [west_d a (by omega) (by omega), if_pos r1, h.swN, e1]
      | cons b l1' =>
        rw [List.cons_append, List.cons.injEq] at e2
        obtain ⟨rfl, e2⟩ := e2
        have hmem : a ∈ (En.filter fun e => decide ((e.x1 : WithBot K) ≤ cur)).map fun e => nOf e.segIdx := by
          rw [e1]; simp
        simp only [List.mem_map, List.mem_filter, decide_eq_true_eq, hEn] at hmem
        obtain ⟨e, ⟨⟨he1, he2⟩, he3⟩, rfl⟩ := hmem
        rw [R.west_old _ (h.new_n e he1 he2 he3).2.1]
        exact h.westN l1 _ l1' e1
  · simp only
    rw [hN, List.getLast?_append, h.swN]
    cases (List.range' s.t.n ds0.length).getLast? <;> rfl
  · simp only
    rw [hN, List.getLast?_append, h.lastN]
  · -- adjO
    intro l1 e1 e2 l2 heo hxx hle
    simp only
    have m1 : e1 ∈ Eo := by rw [heo]; simp
    have m2 : e2 ∈ Eo := by rw [heo]; simp
    have m1' := (hEo e1).1 m1
    rcases (g_le e1 m1'.1 e1.x0 (.inl rfl)).1 hle with q | q
    · obtain ⟨p, k1, _⟩ := h.closed_o e1 m1'.1 m1'.2 q
      rw [R.nb_old _ p k1]
      exact h.adjO l1 e1 e2 l2 heo hxx q
    · have hring := R.ring_new
      have hsp : us0 = (l1.filter fun e => decide (e.x0 = x)).map OutputEvent.segIdx ++
          e1.segIdx :: e2.segIdx :: (l2.filter fun e => decide (e.x0 = x)).map OutputEvent.segIdx := by
        rw [hus, heo, List.filter_append, List.filter_cons, if_pos (by simpa using q), List.filter_cons,
          if_pos (by rw [← hxx]; simpa using q)]
        simp
      have hc := hring.chain
      rw [List.isChain_append, List.isChain_append, List.isChain_append] at hc
      have hc := hc.2.1.2.1.2.1
      rw [hsp, List.map_append, List.map_cons, List.map_cons, List.isChain_append] at hc
      have hc := hc.2.1
      rw [List.isChain_cons_cons] at hc
      exact hc.1.1
  · intro i hi; simp only; rw [R.east_old i (by have := h.n_le; omega), h.eastO i hi]
  · intro i h1 h2
    simp only at h2 ⊢
    by_cases q : i < s.t.n
    · rw [R.east_old i q]; exact h.eastN i h1 q
    · exact R.east_new i (by omega) h2
  · simp only; rw [R.scanAfter, h.afterO]
  · intro hh p hp
    simp only
    rw [R.nb_old _ p (h.pidx_old hh p hp), h.nb_old hh p hp]
  · intro hh p hp
    simp only at hp
    have hpl : t0.points.length ≤ s.t.points.length := by
      obtain ⟨ps, e1, _⟩ := h.points_old
      rw [e1]; simp
    by_cases q1 : hh.idx < s.t.n
    · by_cases q2 : (∀ a ∈ s.r.active.map HFrag.seg, hh ≠ ⟨hOf a, false⟩) ∧ (∀ a ∈ us0, hh ≠ ⟨(t0.openSegs a).headD 0, false⟩)
      · rw [R.pidx_rest hh q1 q2.1 q2.2] at hp
        exact h.pidx_new hh p hp
      · right
        rw [not_and_or] at q2
        rcases q2 with q2 | q2
        · push Not at q2
          obtain ⟨a, ha, rfl⟩ := q2
          rw [R.pidx_h a ha] at hp
          have : s.t.points.length = p := by simpa using hp
          omega
        · push Not at q2
          obtain ⟨a, ha, rfl⟩ := q2
          rw [R.pidx_u a ha] at hp
          have : s.t.points.length = p := by simpa using hp
          omega
    · right
      have := R.pidx_new hh.idx (by omega) (R.good.ptLt hh p hp).2
      obtain ⟨i, b⟩ := hh
      cases b
      · rw [this.2] at hp; simp at hp
      · rw [this.1] at hp; simp at hp; omega

end Verif.Topo
