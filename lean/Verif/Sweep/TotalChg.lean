import Verif.Sweep.TotalLive
import Verif.Sweep.Intervals
import Verif.Sweep.Balance

/-!
# The sweep does not panic: changed intervals

The computation of the changed intervals comes to its end, and every entry in a changed interval knows its old place.
-/

namespace Verif.Sweep
open Verif.Curve Verif.Range Verif.Topo
set_option linter.unusedSectionVars false

variable {K : Type} [LinearOrder K] {E : Env K}

theorem takeWhile_stop {α : Type} {p : α → Bool} (l : List α) : ∀ {e : α}, l[(l.takeWhile p).length]? = some e → p e = false := by
  induction l with
  | nil => intro e h; simp at h
  | cons a l ih =>
    intro e h
    rw [List.takeWhile_cons] at h
    by_cases ha : p a = true
    · rw [if_pos ha, List.length_cons, List.getElem?_cons_succ] at h
      exact ih h
    · rw [if_neg ha, List.length_nil, List.getElem?_cons_zero, Option.some.injEq] at h
      rw [← h]; simpa using ha

/-- The entry at the end of the span of a horizontal segment is to the right of it. -/
theorem horizontalSpan_stop {y : K} {L : List Entry} {seg : Nat} {e : Entry} (he : L[(horizontalSpan E y L seg).2]? = some e) :
    E.endX seg < E.lower2 e.seg y := by
  unfold horizontalSpan at he
  dsimp only at he
  generalize E.pp (fun a => decide (E.upper2 a y ≤ E.startX seg)) (L.map Entry.seg) = n at he
  rw [← List.getElem?_drop] at he
  have := takeWhile_stop (p := fun e : Entry => decide (E.lower2 e.seg y ≤ E.endX seg)) (L.drop n) he
  simpa using this

/-- The entry before the span of a horizontal segment is to the left of it. -/
theorem horizontalSpan_start (hpp : E.PP) {y : K} {L : List Entry} {seg i : Nat} {e : Entry} (hi : i + 1 = (horizontalSpan E y L seg).1) (he : L[i]? = some e) :
    E.upper2 e.seg y ≤ E.startX seg := by
  unfold horizontalSpan at hi
  dsimp only at hi
  have := hpp.left _ (L.map Entry.seg) i e.seg hi (by rw [List.getElem?_map, he]; rfl)
  simpa using this

/-- While the horizontal segments are treated: the intervals hold only entries that know their old place, and the last one reaches far enough. -/
structure HSure (E : Env K) (y : K) (L : List Entry) (lastEnd : Option K) (line : List Entry) (chg : List CI) : Prop where
  marks : ∀ c ∈ chg, ∀ (i : Nat) (e : Entry), c.start ≤ i → i < c.stop → line[i]? = some e → e.oldIdx ≠ none
  tail : ∀ m, lastEnd = some m → ∃ a b h rest, chg = ⟨a, b, some h⟩ :: rest ∧ ∃ k ≤ b, ∀ e, L[k]? = some e → m < E.lower2 e.seg y
  flags : ∀ e ∈ line, e.inCh = false

theorem HSure.keep {y : K} {L line : List Entry} {m : Option K} {chg : List CI} (h : HSure E y L m line chg) (a b : Nat) :
    (∀ c ∈ chg, ∀ (i : Nat) (e : Entry), c.start ≤ i → i < c.stop → (markOld line a b)[i]? = some e → e.oldIdx ≠ none) ∧
      ∀ e ∈ markOld line a b, e.inCh = false := by
  constructor
  · intro c hc i e h1 h2 he
    obtain ⟨f, hf⟩ := (Same.markOld line a b).get he
    exact ((Same.markOld line a b).place i f e hf he).2.2.1 (h.marks c hc i f h1 h2 hf)
  · intro e he
    obtain ⟨i, hi⟩ := List.mem_iff_getElem?.1 he
    obtain ⟨f, hf⟩ := (Same.markOld line a b).get hi
    rw [markOld_inCh hf hi]
    exact h.flags f (List.mem_of_getElem? hf)

theorem HSure.fresh {y : K} {L line : List Entry} {lastEnd : Option K} {chg : List CI} (h : HSure E y L lastEnd line chg) {seg : Nat} {m : K}
    (hm : m = E.endX seg) (p : Nat × Nat) :
    HSure E y L (some m) (markOld line (horizontalSpan E y L seg).1 (horizontalSpan E y L seg).2)
      (⟨(horizontalSpan E y L seg).1, (horizontalSpan E y L seg).2, some p⟩ :: chg) := by
  obtain ⟨k1, k2⟩ := h.keep (horizontalSpan E y L seg).1 (horizontalSpan E y L seg).2
  refine ⟨?_, ?_, k2⟩
  · intro c hc i e h1 h2 he
    rcases List.mem_cons.1 hc with rfl | hc
    · exact markOld_in ⟨h1, h2⟩ he
    · exact k1 c hc i e h1 h2 he
  · intro m' hm'
    rw [Option.some.injEq] at hm'
    subst hm'
    refine ⟨_, _, _, _, rfl, _, Nat.le_refl _, ?_⟩
    intro e he
    rw [hm]
    exact horizontalSpan_stop he

theorem HSure.extend (hpp : E.PP) {y : K} (hcor : E.Corner y) {L line : List Entry} (hord : OrdC E y (L.map Entry.seg)) {last : K} {a b : Nat} {p p' : Nat × Nat} {chg : List CI}
    (h : HSure E y L (some last) line (⟨a, b, some p⟩ :: chg)) {seg : Nat} (hs : E.startX seg ≤ last) (hb : (horizontalSpan E y L seg).1 ≤ L.length) :
    HSure E y L (some (max last (E.endX seg))) (markOld line (horizontalSpan E y L seg).1 (horizontalSpan E y L seg).2)
      (⟨a, max b (horizontalSpan E y L seg).2, some p'⟩ :: chg) := by
  obtain ⟨k1, k2⟩ := h.keep (horizontalSpan E y L seg).1 (horizontalSpan E y L seg).2
  obtain ⟨a', b', q, rest, e1, k, hk, hend⟩ := h.tail last rfl
  rw [List.cons.injEq, CI.mk.injEq] at e1
  obtain ⟨⟨rfl, rfl, e2⟩, rfl⟩ := e1
  have hle : (horizontalSpan E y L seg).1 ≤ k := by
    by_contra hc
    obtain ⟨i, hi⟩ : ∃ i, i + 1 = (horizontalSpan E y L seg).1 := ⟨(horizontalSpan E y L seg).1 - 1, by omega⟩
    have hil : i < L.length := by omega
    have hkl : k < L.length := by omega
    have h1 := horizontalSpan_start hpp hi (List.getElem?_eq_getElem hil)
    have h2 := hend _ (List.getElem?_eq_getElem hkl)
    have g1 : (L.map Entry.seg)[k]? = some L[k].seg := by rw [List.getElem?_map, List.getElem?_eq_getElem hkl]; rfl
    have g2 : (L.map Entry.seg)[i]? = some L[i].seg := by rw [List.getElem?_map, List.getElem?_eq_getElem hil]; rfl
    have h3 := hord.upper hcor k i _ _ (by omega) g1 g2
    have h4 := hord.lower hcor k k _ _ (Nat.le_refl _) g1 g1
    exact absurd (h4.trans_lt (h3.trans_le (h1.trans (hs.trans h2.le)))) (lt_irrefl _)
  refine ⟨?_, ?_, k2⟩
  · intro c hc i e h1 h2 he
    rcases List.mem_cons.1 hc with rfl | hc
    · dsimp only at h1 h2
      by_cases hib : i < b
      · exact k1 _ List.mem_cons_self i e h1 hib he
      · exact markOld_in ⟨by omega, by omega⟩ he
    · exact k1 c (List.mem_cons_of_mem _ hc) i e h1 h2 he
  · intro m' hm'
    rw [Option.some.injEq] at hm'
    subst hm'
    refine ⟨_, _, _, _, rfl, ?_⟩
    rcases le_total (E.endX seg) last with hc | hc
    · refine ⟨k, by omega, ?_⟩
      rw [max_eq_left hc]
      exact hend
    · refine ⟨_, Nat.le_max_right _ _, ?_⟩
      rw [max_eq_right hc]
      exact fun e he => horizontalSpan_stop he

theorem horizontalLoop_total (hpp : E.PP) {y : K} {L : List Entry} (hord : OrdC E y (L.map Entry.seg)) (rest : List Nat) :
    ∀ {n : Nat} {lastEnd : Option K} {line : List Entry} {chg : List CI}, Same L line → HSure E y L lastEnd line chg →
      (∀ s ∈ rest, E.startX s ≤ E.endX s ∧ E.Corner y) →
      ∃ r m, horizontalLoop E y rest n lastEnd line chg = some r ∧ HSure E y L m r.1 r.2 := by
  induction rest with
  | nil => intro n lastEnd line chg hsm h _; exact ⟨_, _, rfl, h⟩
  | cons seg rest ih =>
    intro n lastEnd line chg hsm h hfl
    have hb := horizontalSpan_bound hpp y L seg
    have hsm' : Same L (markOld line (horizontalSpan E y L seg).1 (horizontalSpan E y L seg).2) := hsm.trans (Same.markOld _ _ _)
    have hfl' : ∀ s ∈ rest, E.startX s ≤ E.endX s ∧ E.Corner y := fun s hs => hfl s (List.mem_cons_of_mem _ hs)
    simp only [horizontalLoop, horizontalSpan_same hsm]
    cases lastEnd with
    | none =>
      dsimp only
      exact ih hsm' (h.fresh rfl (n, n + 1)) hfl'
    | some last =>
      dsimp only
      by_cases hle : E.startX seg ≤ last
      · rw [if_pos hle]
        obtain ⟨a, b, p, rest', e1, -⟩ := h.tail last rfl
        subst e1
        dsimp only
        exact ih hsm' (h.extend hpp (hfl seg (by simp)).2 hord hle (hb.1.trans hb.2)) hfl'
      · rw [if_neg hle]
        refine ih hsm' (h.fresh ?_ (n, n + 1)) hfl'
        exact max_eq_right ((not_le.1 hle).le.trans (hfl seg (by simp)).1)

theorem contourLoop_total {y : K} (js : List Nat) : ∀ {line : List Entry} {chg : List CI}, (∀ j ∈ js, j < line.length) →
    ∃ r, contourLoop E y js line chg = some r := by
  induction js with
  | nil => intro line chg _; exact ⟨_, rfl⟩
  | cons j js ih =>
    intro line chg h
    have hj := h j (by simp)
    have h' : ∀ i ∈ js, i < line.length := fun i hi => h i (List.mem_cons_of_mem _ hi)
    simp only [contourLoop]
    rw [List.getElem?_eq_getElem hj]
    dsimp only
    split_ifs
    · exact ih h'
    · exact ih h'
    all_goals
      refine ih ?_
      intro i hi
      rw [markOld_length, markOld_length]
      exact h' i hi

section
variable (hK : E.Comparable) {y : K}
include hK

theorem Env.Comparable.consAt {a b : Nat} (ha : E.On y a) (hb : E.On y b) : ∃ o, (E.cons a b).orderAt y = some o := by
  obtain ⟨h1, h2⟩ := hK.cons a b y ha hb
  exact orderAt_total h1 h2 (le_min ha.2.2 hb.2.2)

theorem Env.Comparable.cmpAt {a b : Nat} (ha : E.On y a) (hb : E.On y b) : ∃ o, (E.cmp a b).orderAt y = some o := by
  obtain ⟨h1, _, h2⟩ := hK.wf a b y ha hb
  exact orderAt_total h1 h2 (le_min ha.2.2 hb.2.2)

theorem growRight_total (is : List Nat) : ∀ {line : List Entry} {stop : Nat}, (∀ e ∈ line, E.On y e.seg) → 0 < stop → stop ≤ line.length →
    (∀ i ∈ is, i < line.length) → ∃ r, growRight E y is line stop = some r := by
  induction is with
  | nil => intro line stop _ _ _ _; exact ⟨_, rfl⟩
  | cons i is ih =>
    intro line stop hon h0 hs hi
    have hil := hi i (by simp)
    have hi' : ∀ j ∈ is, j < line.length := fun j hj => hi j (List.mem_cons_of_mem _ hj)
    have hsl : stop - 1 < line.length := by omega
    simp only [growRight]
    rw [List.getElem?_eq_getElem hil, List.getElem?_eq_getElem hsl]
    dsimp only
    have g1 := hon _ (List.getElem_mem hsl)
    have g2 := hon _ (List.getElem_mem hil)
    obtain ⟨o1, h1⟩ := hK.consAt g1 g2
    obtain ⟨o2, h2⟩ := hK.cmpAt g1 g2
    rw [h1, h2]
    have key : ∃ r, growRight E y is (markCh line stop (i + 1)) (i + 1) = some r := by
      refine ih ?_ (by omega) (by rw [markCh_length]; omega) (by rw [markCh_length]; exact hi')
      exact on_of_segs (Same.markCh line stop (i + 1)).segs hon
    cases o1 <;> cases o2 <;> first | exact ⟨_, rfl⟩ | exact ih hon h0 hs hi' | exact key

theorem growLeft_total (is : List Nat) : ∀ {line : List Entry} {start : Nat}, (∀ e ∈ line, E.On y e.seg) → start < line.length →
    (∀ i ∈ is, i < line.length) → ∃ r, growLeft E y is line start = some r := by
  induction is with
  | nil => intro line start _ _ _; exact ⟨_, rfl⟩
  | cons i is ih =>
    intro line start hon hs hi
    have hil := hi i (by simp)
    have hi' : ∀ j ∈ is, j < line.length := fun j hj => hi j (List.mem_cons_of_mem _ hj)
    simp only [growLeft]
    rw [List.getElem?_eq_getElem hil, List.getElem?_eq_getElem hs]
    dsimp only
    have g1 := hon _ (List.getElem_mem hs)
    have g2 := hon _ (List.getElem_mem hil)
    obtain ⟨o1, h1⟩ := hK.consAt g2 g1
    obtain ⟨o2, h2⟩ := hK.cmpAt g2 g1
    rw [h1, h2]
    have key : ∃ r, growLeft E y is (markCh line i start) i = some r := by
      refine ih ?_ (by rw [markCh_length]; exact hil) (by rw [markCh_length]; exact hi')
      exact on_of_segs (Same.markCh line i start).segs hon
    cases o1 <;> cases o2 <;> first | exact ⟨_, rfl⟩ | exact ih hon hs hi' | exact key

theorem positionLoop_total (js : List Nat) : ∀ {line : List Entry} {chg : List CI}, (∀ e ∈ line, E.On y e.seg) → (∀ j ∈ js, j < line.length) →
    ∃ r, positionLoop E y js line chg = some r := by
  induction js with
  | nil => intro line chg _ _; exact ⟨_, rfl⟩
  | cons j js ih =>
    intro line chg hon h
    have hj := h j (by simp)
    have h' : ∀ i ∈ js, i < line.length := fun i hi => h i (List.mem_cons_of_mem _ hi)
    simp only [positionLoop]
    rw [List.getElem?_eq_getElem hj]
    dsimp only
    by_cases hin : line[j].inCh = true
    · rw [if_pos hin]; exact ih hon h'
    rw [if_neg hin]
    have hb : ∀ i ∈ List.range' (j + 1) (line.length - (j + 1)), i < line.length := by
      intro i hi; rw [List.mem_range'_1] at hi; omega
    obtain ⟨⟨l1, stop⟩, hg⟩ := growRight_total hK (List.range' (j + 1) (line.length - (j + 1))) (line := markCh line j (j + 1)) (stop := j + 1)
      (on_of_segs (Same.markCh line j (j + 1)).segs hon) (by omega) (by rw [markCh_length]; omega) (by rw [markCh_length]; exact hb)
    obtain ⟨g1, g2, g3⟩ := growRight_spec _ hg (by rw [markCh_length]; intro i hi; rw [List.mem_range'_1] at hi; omega) (range'_lt _ _) (by rw [markCh_length]; omega)
    dsimp only at g1 g2 g3
    rw [(markCh_join line j (j + 1) stop (by omega) g1).1] at g3
    rw [hg]
    dsimp only
    subst g3
    obtain ⟨⟨l2, start⟩, hg'⟩ := growLeft_total hK (List.range j).reverse (line := markCh line j stop) (start := j)
      (on_of_segs (Same.markCh line j stop).segs hon) (by rw [markCh_length]; exact hj) (by
        rw [markCh_length]; intro i hi; rw [List.mem_reverse, List.mem_range] at hi; omega)
    obtain ⟨k1, k2⟩ := growLeft_spec _ hg' (by
      intro i hi
      simpa using hi) (by
      rw [List.pairwise_reverse]
      exact List.pairwise_lt_range)
    dsimp only at k1 k2
    rw [hg']
    dsimp only
    rw [(markCh_join line start j stop k1 (by omega)).2] at k2
    subst k2
    exact ih (on_of_segs (Same.markCh line start stop).segs hon) (by rw [markCh_length]; exact h')

end

/-- The changed intervals are computed without a panic, and the entries in them know their old places. -/
theorem computeChanged_total (hpp : E.PP) (hK : E.Comparable) {s : State K} (hon : ∀ e ∈ s.line, E.On s.y e.seg) (hord : OrdC E s.y (s.line.map Entry.seg))
    (hsnp : ∀ i ∈ s.snp, i < s.line.length) (hfl : ∀ x ∈ s.horiz, E.startX x ≤ E.endX x ∧ E.Corner s.y)
    (hin : ∀ e ∈ s.line, e.inCh = false) (hold : ∀ (i : Nat) (e : Entry), s.line[i]? = some e → e.oldIdx ≠ none → i ∈ s.snp) :
    ∃ s', computeChanged E s = some s' ∧ ∀ c ∈ s'.chg, ∀ (i : Nat) (e : Entry), c.start ≤ i → i < c.stop → s'.line[i]? = some e → e.oldIdx ≠ none := by
  have hsort : (sortHoriz E s.horiz).Pairwise (fun a b => E.startX a ≤ E.startX b) := by
    have := pairwise_stableSort (le := fun a b => decide (E.startX a ≤ E.startX b))
      (by intro a b c; simp only [decide_eq_true_eq]; exact le_trans)
      (by intro a b; simp only [Bool.or_eq_true, decide_eq_true_eq]; exact le_total _ _) s.horiz
    refine this.imp ?_
    intro a b hab; simpa using hab
  have hperm : (sortHoriz E s.horiz).Perm s.horiz := stableSort_perm _ _
  have hm0 : Marking s.line s.line s.snp [] := by
    refine ⟨Same.refl _, ?_, ?_, by simp [SureOk], by simp⟩
    · intro i e he hi
      rw [hin e (List.mem_of_getElem? he)] at hi
      simp at hi
    · intro i e he ho
      exact .inl (hold i e he ho)
  obtain ⟨⟨l1, c1⟩, m, hh1, hsure⟩ := horizontalLoop_total hpp hord (sortHoriz E s.horiz) (n := 0) (lastEnd := none) (line := s.line) (chg := []) (Same.refl _)
    ⟨by simp, by simp, hin⟩ (fun x hx => hfl x (hperm.mem_iff.1 hx))
  obtain ⟨m', H⟩ := horizontalLoop_spec hpp (sortHoriz E s.horiz) (pre := []) hh1 (HInv.init E s.y hm0) hsort
  rw [List.nil_append] at H
  dsimp only at H hsure
  obtain ⟨⟨l2, c2⟩, hh2⟩ := contourLoop_total (E := E) (y := s.y) s.snp (line := l1) (chg := c1) (by rw [H.marking.same.len]; exact hsnp)
  obtain ⟨a1, a2, a3, a4, a5, a6⟩ := contourLoop_spec s.snp (fun j hj => hj) hh2 H.marking
  dsimp only at a1 a2 a3 a4 a5 a6
  obtain ⟨⟨l3, c3⟩, hh3⟩ := positionLoop_total hK (y := s.y) s.snp (line := l2) (chg := c2) (on_of_segs a1.same.segs hon) (by rw [a1.same.len]; exact hsnp)
  obtain ⟨b1, b2, b3, b4, b5, b6⟩ := positionLoop_spec s.snp hh3 a1
  dsimp only at b1 b2 b3 b4 b5 b6
  refine ⟨_, by unfold computeChanged; dsimp only; rw [hh1]; dsimp only; rw [hh2]; dsimp only; rw [hh3], ?_⟩
  dsimp only
  have hsnp3 : ∀ i ∈ s.snp, ∀ e, l3[i]? = some e → e.oldIdx ≠ none := by
    intro i hi e he
    obtain ⟨f, h1, h2, h3⟩ := b6 i hi
    rw [he, Option.some.injEq] at h1
    subst h1
    rcases h3 with h3 | ⟨e0, h3, h4⟩
    · exact h3
    · obtain ⟨g, hg⟩ := a3.get h3
      rw [a5 i g e0 hg h3, hsure.flags g (List.mem_of_getElem? hg)] at h4
      simp at h4
  have hsp : (stableSort (fun a b => decide (a.start ≤ b.start)) c3.reverse).Perm c3 :=
    (stableSort_perm _ _).trans (List.reverse_perm _)
  have hss : (stableSort (fun a b => decide (a.start ≤ b.start)) c3.reverse).Pairwise (fun a b : CI => a.start ≤ b.start) := by
    have := pairwise_stableSort (le := fun a b : CI => decide (a.start ≤ b.start))
      (by intro a b c; simp only [decide_eq_true_eq]; exact le_trans)
      (by intro a b; simp only [Bool.or_eq_true, decide_eq_true_eq]; exact le_total _ _) c3.reverse
    refine this.imp ?_
    intro a b hab; simpa using hab
  obtain ⟨gs, g1, g2, g3⟩ := mergeAdjacent_spec _ hss
  intro c hc i e h1 h2 he
  obtain ⟨g, hg, hh⟩ := forall₂_right g2 hc
  obtain ⟨d, hd, h3, h4⟩ := hh.cover i h1 h2
  have hd3 : d ∈ c3 := hsp.mem_iff.1 (by rw [← g1]; exact List.mem_flatten.2 ⟨g, hg, hd⟩)
  cases hz : d.hz with
  | none =>
    rcases b1.sure d hd3 hz i e h3 h4 he with h5 | h5
    · exact h5
    · exact hsnp3 i h5 e he
  | some p =>
    have : d ∈ c3.filter fun c => c.hz.isSome := by simp [hd3, hz]
    rw [b5, a4, List.mem_filter] at this
    have hs13 := a3.trans b4
    obtain ⟨f, hf⟩ := hs13.get he
    exact (hs13.place i f e hf he).2.2.1 (hsure.marks d this.1 i f h3 h4 hf)

end Verif.Sweep
