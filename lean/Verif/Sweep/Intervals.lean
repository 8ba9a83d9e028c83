import Verif.Sweep.Contour

/-! Merging the changed intervals (`merge_adjacent`) and the whole of `compute_changed_intervals`. -/

namespace Verif.Sweep
open Verif.Curve Verif.Range Verif.Topo
set_option linter.unusedSectionVars false

variable {K : Type} [LinearOrder K]

/-- `c` is the union of the intervals `ds`. -/
structure IsHull (ds : List CI) (c : CI) : Prop where
  startMem : ∃ d ∈ ds, d.start = c.start
  stopMem : ∃ d ∈ ds, d.stop = c.stop
  sub : ∀ d ∈ ds, c.start ≤ d.start ∧ d.stop ≤ c.stop
  cover : ∀ i, c.start ≤ i → i < c.stop → Covered ds i
  hzNone : c.hz = none → ∀ d ∈ ds, d.hz = none
  hzFst : ∀ a b, c.hz = some (a, b) → ∃ d ∈ ds, ∃ b', d.hz = some (a, b')
  hzSnd : ∀ a b, c.hz = some (a, b) → ∃ d ∈ ds, ∃ a', d.hz = some (a', b)
  hzSub : ∀ d ∈ ds, ∀ p q, d.hz = some (p, q) → ∃ a b, c.hz = some (a, b) ∧ a ≤ p ∧ q ≤ b

theorem IsHull.single (c : CI) : IsHull [c] c := by
  refine ⟨⟨c, by simp⟩, ⟨c, by simp⟩, by simp, ?_, by simp, ?_, ?_, ?_⟩
  · intro i h1 h2; exact ⟨c, by simp, h1, h2⟩
  · intro a b h; exact ⟨c, by simp, b, h⟩
  · intro a b h; exact ⟨c, by simp, a, h⟩
  · intro d hd p q h
    rw [List.mem_singleton] at hd
    subst hd
    exact ⟨p, q, h, le_refl _, le_refl _⟩

theorem IsHull.merge {ds : List CI} {cur c : CI} (h : IsHull ds cur) (h1 : cur.start ≤ c.start) (h2 : c.start ≤ cur.stop) :
    IsHull (ds ++ [c]) (cur.merge c) := by
  obtain ⟨d1, m1, e1⟩ := h.startMem
  obtain ⟨d2, m2, e2⟩ := h.stopMem
  constructor
  case startMem => exact ⟨d1, by simp [m1], by simp only [CI.merge]; omega⟩
  case stopMem =>
    rcases le_total c.stop cur.stop with hle | hle
    · exact ⟨d2, by simp [m2], by simp only [CI.merge]; omega⟩
    · exact ⟨c, by simp, by simp only [CI.merge]; omega⟩
  case sub =>
    intro d hd
    simp only [CI.merge]
    rcases List.mem_append.1 hd with hd | hd
    · have := h.sub d hd; omega
    · rw [List.mem_singleton] at hd; subst hd; omega
  case cover =>
    intro i hi1 hi2
    simp only [CI.merge] at hi1 hi2
    by_cases hc : i < cur.stop
    · obtain ⟨d, hd, r⟩ := h.cover i (by omega) hc
      exact ⟨d, by simp [hd], r⟩
    · exact ⟨c, by simp, by omega, by omega⟩
  case hzNone =>
    intro hz d hd
    simp only [CI.merge] at hz
    cases hp : cur.hz with
    | some p => cases hq : c.hz with
      | none => rw [hp, hq] at hz; simp at hz
      | some q => rw [hp, hq] at hz; simp at hz
    | none => cases hq : c.hz with
      | some q => rw [hp, hq] at hz; simp at hz
      | none =>
        rcases List.mem_append.1 hd with hd | hd
        · exact h.hzNone hp d hd
        · rw [List.mem_singleton] at hd; subst hd; exact hq
  case hzFst =>
    intro a b hz
    simp only [CI.merge] at hz
    cases hp : cur.hz with
    | none => cases hq : c.hz with
      | none => rw [hp, hq] at hz; simp at hz
      | some q =>
        rw [hp, hq] at hz
        exact ⟨c, by simp, b, by rw [hq]; exact hz⟩
    | some p => cases hq : c.hz with
      | none =>
        rw [hp, hq] at hz
        obtain ⟨d, hd, b', r⟩ := h.hzFst a b (by rw [hp]; exact hz)
        exact ⟨d, by simp [hd], b', r⟩
      | some q =>
        rw [hp, hq] at hz
        simp only [Option.some.injEq, Prod.mk.injEq] at hz
        rcases le_total p.1 q.1 with hle | hle
        · obtain ⟨d, hd, b', r⟩ := h.hzFst p.1 p.2 hp
          exact ⟨d, by simp [hd], b', by rw [r, ← hz.1, min_eq_left hle]⟩
        · exact ⟨c, by simp, q.2, by rw [hq, ← hz.1, min_eq_right hle]⟩
  case hzSnd =>
    intro a b hz
    simp only [CI.merge] at hz
    cases hp : cur.hz with
    | none => cases hq : c.hz with
      | none => rw [hp, hq] at hz; simp at hz
      | some q =>
        rw [hp, hq] at hz
        exact ⟨c, by simp, a, by rw [hq]; exact hz⟩
    | some p => cases hq : c.hz with
      | none =>
        rw [hp, hq] at hz
        obtain ⟨d, hd, b', r⟩ := h.hzSnd a b (by rw [hp]; exact hz)
        exact ⟨d, by simp [hd], b', r⟩
      | some q =>
        rw [hp, hq] at hz
        simp only [Option.some.injEq, Prod.mk.injEq] at hz
        rcases le_total q.2 p.2 with hle | hle
        · obtain ⟨d, hd, b', r⟩ := h.hzSnd p.1 p.2 hp
          exact ⟨d, by simp [hd], b', by rw [r, ← hz.2, max_eq_left hle]⟩
        · exact ⟨c, by simp, q.1, by rw [hq, ← hz.2, max_eq_right hle]⟩
  case hzSub =>
    intro d hd p q hz
    simp only [CI.merge]
    rcases List.mem_append.1 hd with hd | hd
    · obtain ⟨a, b, r1, r2, r3⟩ := h.hzSub d hd p q hz
      rw [r1]
      cases hq : c.hz with
      | none => exact ⟨a, b, rfl, r2, r3⟩
      | some q' => exact ⟨_, _, rfl, by dsimp only; omega, by dsimp only; omega⟩
    · rw [List.mem_singleton] at hd
      subst hd
      rw [hz]
      cases hp : cur.hz with
      | none => exact ⟨p, q, rfl, le_refl _, le_refl _⟩
      | some p' => exact ⟨_, _, rfl, by dsimp only; omega, by dsimp only; omega⟩

theorem mergeFrom_spec (l : List CI) : ∀ {ds : List CI} {cur : CI}, IsHull ds cur → (∀ d ∈ l, cur.start ≤ d.start) →
    l.Pairwise (fun a b => a.start ≤ b.start) →
    ∃ gs : List (List CI), gs.flatten = ds ++ l ∧ List.Forall₂ IsHull gs (mergeFrom cur l) ∧
      (mergeFrom cur l).Pairwise (fun a b => a.stop < b.start) ∧ ∀ c ∈ mergeFrom cur l, cur.start ≤ c.start := by
  induction l with
  | nil =>
    intro ds cur h _ _
    exact ⟨[ds], by simp, by simpa [mergeFrom] using h, by simp [mergeFrom], by simp [mergeFrom]⟩
  | cons c l ih =>
    intro ds cur h hs hp
    rw [List.pairwise_cons] at hp
    have hc := hs c (by simp)
    simp only [mergeFrom]
    by_cases hlt : cur.stop < c.start
    · rw [if_pos hlt]
      obtain ⟨gs, h1, h2, h3, h4⟩ := ih (IsHull.single c) hp.1 hp.2
      refine ⟨ds :: gs, by rw [List.flatten_cons, h1]; rfl, .cons h h2, ?_, ?_⟩
      · rw [List.pairwise_cons]
        exact ⟨fun d hd => by have := h4 d hd; omega, h3⟩
      · intro d hd
        rcases List.mem_cons.1 hd with rfl | hd
        · exact le_refl _
        · have := h4 d hd; omega
    · rw [if_neg hlt]
      have e : (cur.merge c).start = cur.start := by simp only [CI.merge]; omega
      obtain ⟨gs, h1, h2, h3, h4⟩ := ih (h.merge hc (by omega)) (fun d hd => by rw [e]; exact hs d (by simp [hd])) hp.2
      refine ⟨gs, by rw [h1]; simp, h2, h3, ?_⟩
      rw [e] at h4
      exact h4

theorem mergeAdjacent_spec (l : List CI) (hp : l.Pairwise (fun a b => a.start ≤ b.start)) :
    ∃ gs : List (List CI), gs.flatten = l ∧ List.Forall₂ IsHull gs (mergeAdjacent l) ∧
      (mergeAdjacent l).Pairwise (fun a b => a.stop < b.start) := by
  cases l with
  | nil => exact ⟨[], rfl, .nil, .nil⟩
  | cons c l =>
    rw [List.pairwise_cons] at hp
    obtain ⟨gs, h1, h2, h3, _⟩ := mergeFrom_spec l (IsHull.single c) hp.1 hp.2
    exact ⟨gs, h1, h2, h3⟩

theorem forall₂_right {α β : Type} {R : α → β → Prop} {gs : List α} {out : List β} (h : List.Forall₂ R gs out) {c : β} (hc : c ∈ out) :
    ∃ g ∈ gs, R g c := by
  induction h with
  | nil => simp at hc
  | cons h1 h2 ih =>
    rcases List.mem_cons.1 hc with rfl | hc
    · exact ⟨_, by simp, h1⟩
    · obtain ⟨g, hg, r⟩ := ih hc
      exact ⟨g, by simp [hg], r⟩

theorem forall₂_left {α β : Type} {R : α → β → Prop} {gs : List α} {out : List β} (h : List.Forall₂ R gs out) {g : α} (hg : g ∈ gs) :
    ∃ c ∈ out, R g c := by
  induction h with
  | nil => simp at hg
  | cons h1 h2 ih =>
    rcases List.mem_cons.1 hg with rfl | hg
    · exact ⟨_, by simp, h1⟩
    · obtain ⟨c, hc, r⟩ := ih hg
      exact ⟨c, by simp [hc], r⟩

theorem HzChain.pairwise {n : Nat} {chg : List CI} (h : HzChain n chg) :
    chg.Pairwise fun c d => ∀ a b a' b', c.hz = some (a, b) → d.hz = some (a', b') → b' ≤ a := by
  induction h with
  | nil => exact .nil
  | cons a b s t chg h1 h2 ih =>
    rw [List.pairwise_cons]
    refine ⟨?_, ih⟩
    intro d hd a0 b0 a' b' e1 e2
    obtain ⟨p, q, e3, _, e4⟩ := h1.mem d hd
    rw [e2] at e3
    simp only [Option.some.injEq, Prod.mk.injEq] at e1 e3
    omega

theorem pairwise_or {α : Type} {R : α → α → Prop} {l : List α} (h : l.Pairwise R) {a b : α} (ha : a ∈ l) (hb : b ∈ l) :
    a = b ∨ R a b ∨ R b a := by
  induction h with
  | nil => simp at ha
  | cons h1 _ ih =>
    rcases List.mem_cons.1 ha with ha' | ha'
    · rcases List.mem_cons.1 hb with hb' | hb'
      · exact .inl (ha'.trans hb'.symm)
      · exact .inr (.inl (by rw [ha']; exact h1 b hb'))
    · rcases List.mem_cons.1 hb with hb' | hb'
      · exact .inr (.inr (by rw [hb']; exact h1 a ha'))
      · exact ih ha' hb'

/-- What the changed intervals are: `L`, `snp` describe the line before, `h` are the horizontal segments from left to right. -/
structure ChgSpec (E : Env K) (y : K) (L : List Entry) (snp h : List Nat) (L' : List Entry) (chg : List CI) : Prop where
  same : Same L L'
  sep : chg.Pairwise fun a b => a.stop < b.start
  bound : ∀ c ∈ chg, c.start ≤ c.stop ∧ c.stop ≤ L'.length
  placed : ∀ i ∈ snp, Covered chg i
  marked : ∀ (i : Nat) (e : Entry), L'[i]? = some e → (e.inCh = true ∨ e.oldIdx ≠ none) → Covered chg i
  sure : ∀ c ∈ chg, c.hz = none → ∀ (i : Nat) (e : Entry), c.start ≤ i → i < c.stop → L'[i]? = some e → e.oldIdx ≠ none
  reach : ∀ j ∈ snp, ∀ e, L[j]? = some e → e.oldSeg = none → (e.enter = true ∨ e.exit = true) →
    ∀ j', Reach E y L (endPos E e) j j' → ∃ c ∈ chg, c.start ≤ j ∧ j < c.stop ∧ c.start ≤ j' ∧ j' < c.stop
  hzBound : ∀ c ∈ chg, ∀ a b, c.hz = some (a, b) → a < b ∧ b ≤ h.length
  hzOrd : chg.Pairwise fun c d => ∀ a b a' b', c.hz = some (a, b) → d.hz = some (a', b') → b ≤ a'
  hzSpan : ∀ (k s : Nat), h[k]? = some s → ∃ c ∈ chg, ∃ a b, c.hz = some (a, b) ∧ a ≤ k ∧ k < b ∧
    c.start ≤ (horizontalSpan E y L s).1 ∧ (horizontalSpan E y L s).2 ≤ c.stop
  hzLink : ∀ (k k' s s' : Nat), k < k' → h[k]? = some s → h[k']? = some s' → E.startX s' ≤ E.endX s →
    ∃ c ∈ chg, ∃ a b, c.hz = some (a, b) ∧ a ≤ k ∧ k' < b

theorem computeChanged_spec {E : Env K} (hpp : E.PP) {s s' : State K} (h : computeChanged E s = some s')
    (hin : ∀ e ∈ s.line, e.inCh = false) (hold : ∀ (i : Nat) (e : Entry), s.line[i]? = some e → e.oldIdx ≠ none → i ∈ s.snp) :
    ChgSpec E s.y s.line s.snp s'.horiz s'.line s'.chg ∧ s'.horiz.Perm s.horiz ∧ s'.y = s.y ∧ s'.nextEnter = s.nextEnter ∧
      s'.nextExit = s.nextExit ∧ s'.ints = s.ints ∧ s'.snp = s.snp := by
  unfold computeChanged at h
  dsimp only at h
  have hsort : (sortHoriz E s.horiz).Pairwise (fun a b => E.startX a ≤ E.startX b) := by
    have := pairwise_stableSort (le := fun a b => decide (E.startX a ≤ E.startX b))
      (by intro a b c; simp only [decide_eq_true_eq]; exact le_trans)
      (by intro a b; simp only [Bool.or_eq_true, decide_eq_true_eq]; exact le_total _ _) s.horiz
    refine this.imp ?_
    intro a b hab; simpa using hab
  have hperm : (sortHoriz E s.horiz).Perm s.horiz := stableSort_perm _ _
  generalize sortHoriz E s.horiz = hs at *
  have hm0 : Marking s.line s.line s.snp [] := by
    refine ⟨Same.refl _, ?_, ?_, by simp [SureOk], by simp⟩
    · intro i e he hi
      rw [hin e (List.mem_of_getElem? he)] at hi
      simp at hi
    · intro i e he ho
      exact .inl (hold i e he ho)
  split at h
  · simp at h
  rename_i l1 c1 hh1
  obtain ⟨m, H⟩ := horizontalLoop_spec hpp hs (pre := []) hh1 (HInv.init E s.y hm0) hsort
  rw [List.nil_append] at H
  dsimp only at H
  split at h
  · simp at h
  rename_i l2 c2 hh2
  obtain ⟨a1, a2, a3, a4, a5, a6⟩ := contourLoop_spec s.snp (fun j hj => hj) hh2 H.marking
  dsimp only at a1 a2 a3 a4 a5 a6
  split at h
  · simp at h
  rename_i l3 c3 hh3
  obtain ⟨b1, b2, b3, b4, b5, b6⟩ := positionLoop_spec s.snp hh3 a1
  dsimp only at b1 b2 b3 b4 b5 b6
  simp only [Option.some.injEq] at h
  subst h
  refine ⟨?_, hperm, rfl, rfl, rfl, rfl, rfl⟩
  dsimp only
  -- entries are not in an interval before the last loop
  have hin2 : ∀ (i : Nat) (e : Entry), l2[i]? = some e → e.inCh = false := by
    intro i e he
    obtain ⟨f, hf⟩ := a3.get he
    rw [a5 i f e hf he]
    obtain ⟨g, hg⟩ := H.marking.same.get hf
    by_contra hc
    -- the marks made for horizontal segments leave the flag alone
    exact hc (by
      have : ∀ (rest : List Nat) (idx : Nat) (le : Option K) (line : List Entry) (chg : List CI) (r : List Entry × List CI),
          horizontalLoop E s.y rest idx le line chg = some r → (∀ e ∈ line, e.inCh = false) → ∀ e ∈ r.1, e.inCh = false := by
        intro rest
        induction rest with
        | nil =>
          intro idx le line chg r h1 h2
          simp only [horizontalLoop, Option.some.injEq] at h1
          subst h1
          exact h2
        | cons seg rest ih =>
          intro idx le line chg r h1 h2
          have h3 : ∀ e ∈ markOld line (horizontalSpan E s.y line seg).1 (horizontalSpan E s.y line seg).2, e.inCh = false := by
            intro e he
            obtain ⟨i, hi⟩ := List.mem_iff_getElem?.1 he
            obtain ⟨f, hf⟩ := (Same.markOld line _ _).get hi
            rw [markOld_inCh hf hi]
            exact h2 f (List.mem_of_getElem? hf)
          simp only [horizontalLoop] at h1
          cases le with
          | none => exact ih _ _ _ _ _ h1 h3
          | some l =>
            dsimp only at h1
            by_cases hl : E.startX seg ≤ l
            · rw [if_pos hl] at h1
              split at h1
              · exact ih _ _ _ _ _ h1 h3
              · simp at h1
            · rw [if_neg hl] at h1
              exact ih _ _ _ _ _ h1 h3
      exact this hs 0 none s.line [] _ hh1 hin f (List.mem_of_getElem? hf))
  have hsnp : ∀ i ∈ s.snp, ∃ e, l3[i]? = some e ∧ e.inCh = true ∧ e.oldIdx ≠ none := by
    intro i hi
    obtain ⟨e, h1, h2, h3⟩ := b6 i hi
    refine ⟨e, h1, h2, ?_⟩
    rcases h3 with h3 | ⟨e0, h3, h4⟩
    · exact h3
    · rw [hin2 i e0 h3] at h4
      simp at h4
  have hsp : (stableSort (fun a b => decide (a.start ≤ b.start)) c3.reverse).Perm c3 :=
    (stableSort_perm _ _).trans (List.reverse_perm _)
  have hss : (stableSort (fun a b => decide (a.start ≤ b.start)) c3.reverse).Pairwise (fun a b : CI => a.start ≤ b.start) := by
    have := pairwise_stableSort (le := fun a b : CI => decide (a.start ≤ b.start))
      (by intro a b c; simp only [decide_eq_true_eq]; exact le_trans)
      (by intro a b; simp only [Bool.or_eq_true, decide_eq_true_eq]; exact le_total _ _) c3.reverse
    refine this.imp ?_
    intro a b hab; simpa using hab
  generalize (stableSort (fun a b => decide (a.start ≤ b.start)) c3.reverse) = P at *
  obtain ⟨gs, g1, g2, g3⟩ := mergeAdjacent_spec P hss
  generalize mergeAdjacent P = chg at *
  -- every piece is part of one interval
  have hpiece : ∀ d ∈ c3, ∃ c ∈ chg, c.start ≤ d.start ∧ d.stop ≤ c.stop ∧
      ∀ p q, d.hz = some (p, q) → ∃ a b, c.hz = some (a, b) ∧ a ≤ p ∧ q ≤ b := by
    intro d hd
    have hd' : d ∈ gs.flatten := by rw [g1]; exact hsp.mem_iff.2 hd
    obtain ⟨g, hg, hdg⟩ := List.mem_flatten.1 hd'
    obtain ⟨c, hc, hh⟩ := forall₂_left g2 hg
    exact ⟨c, hc, (hh.sub d hdg).1, (hh.sub d hdg).2, hh.hzSub d hdg⟩
  have hgrp : ∀ c ∈ chg, ∃ g, IsHull g c ∧ ∀ d ∈ g, d ∈ c3 := by
    intro c hc
    obtain ⟨g, hg, hh⟩ := forall₂_right g2 hc
    exact ⟨g, hh, fun d hd => hsp.mem_iff.1 (by rw [← g1]; exact List.mem_flatten.2 ⟨g, hg, hd⟩)⟩
  have hcov : ∀ i, Covered c3 i → Covered chg i := by
    rintro i ⟨d, hd, h1, h2⟩
    obtain ⟨c, hc, h3, h4, _⟩ := hpiece d hd
    exact ⟨c, hc, by omega, by omega⟩
  have hfil : ∀ d ∈ c3, ∀ p q, d.hz = some (p, q) → d ∈ c1 := by
    intro d hd p q hz
    have : d ∈ c3.filter fun c => c.hz.isSome := by simp [hd, hz]
    rw [b5, a4, List.mem_filter] at this
    exact this.1
  have hbd : ∀ c ∈ chg, c.start ≤ c.stop ∧ c.stop ≤ l3.length := by
    intro c hc
    obtain ⟨g, hh, hg⟩ := hgrp c hc
    obtain ⟨d, hd, e1⟩ := hh.startMem
    obtain ⟨d', hd', e2⟩ := hh.stopMem
    have h1 := b1.bound d (hg d hd)
    have h2 := b1.bound d' (hg d' hd')
    have h3 := hh.sub d hd
    omega
  constructor
  case same => exact b1.same
  case sep => exact g3
  case bound => exact hbd
  case placed =>
    intro i hi
    obtain ⟨e, h1, h2, _⟩ := hsnp i hi
    exact hcov i (b1.inCh i e h1 h2)
  case marked =>
    intro i e he hor
    rcases hor with hor | hor
    · exact hcov i (b1.inCh i e he hor)
    · rcases b1.old i e he hor with h1 | h1
      · obtain ⟨f, h2, h3, _⟩ := hsnp i h1
        exact hcov i (b1.inCh i f h2 h3)
      · exact hcov i h1
  case sure =>
    intro c hc hz i e h1 h2 he
    obtain ⟨g, hh, hg⟩ := hgrp c hc
    obtain ⟨d, hd, h3, h4⟩ := hh.cover i h1 h2
    rcases b1.sure d (hg d hd) (hh.hzNone hz d hd) i e h3 h4 he with h5 | h5
    · exact h5
    · obtain ⟨f, h6, _, h7⟩ := hsnp i h5
      rw [he, Option.some.injEq] at h6
      rw [h6]; exact h7
  case reach =>
    intro j hj e he ho hf j' hr
    have hs1 := H.marking.same
    obtain ⟨f, hf'⟩ := hs1.get' he
    obtain ⟨q1, q2, q3, q4⟩ := hs1.core he hf'
    have hep : endPos E f = endPos E e := by unfold endPos; rw [q1, q2]
    obtain ⟨d, hd, r⟩ := a6 j hj f hf' (by rw [q4]; exact ho) (by rw [q2, q3]; exact hf) j' (by rw [hep]; exact hr.same hs1)
    obtain ⟨c, hc, h3, h4, _⟩ := hpiece d (b2 d hd)
    exact ⟨c, hc, by omega, by omega, by omega, by omega⟩
  case hzBound =>
    intro c hc a b hz
    obtain ⟨g, hh, hg⟩ := hgrp c hc
    obtain ⟨d, hd, b', e1⟩ := hh.hzFst a b hz
    obtain ⟨d', hd', a', e2⟩ := hh.hzSnd a b hz
    obtain ⟨p, q, e3, e4, e5⟩ := H.chain.mem d (hfil d (hg d hd) _ _ e1)
    obtain ⟨p', q', e3', e4', e5'⟩ := H.chain.mem d' (hfil d' (hg d' hd') _ _ e2)
    obtain ⟨a2, b2, f1, f2, f3⟩ := hh.hzSub d hd _ _ e1
    rw [hz] at f1
    rw [e1] at e3
    rw [e2] at e3'
    simp only [Option.some.injEq, Prod.mk.injEq] at f1 e3 e3'
    omega
  case hzOrd =>
    have : chg.Pairwise fun a b => a ∈ chg ∧ b ∈ chg ∧ a.stop < b.start := by
      rw [List.pairwise_iff_forall_sublist] at g3 ⊢
      intro a b hab
      exact ⟨hab.subset (by simp), hab.subset (by simp), g3 hab⟩
    refine this.imp ?_
    rintro c d ⟨hc, hd, hlt⟩ a b a' b' hz hz'
    obtain ⟨g, hh, hg⟩ := hgrp c hc
    obtain ⟨g', hh', hg'⟩ := hgrp d hd
    obtain ⟨u, hu, ua, e1⟩ := hh.hzSnd a b hz
    obtain ⟨v, hv, vb, e2⟩ := hh'.hzFst a' b' hz'
    have hu1 := hfil u (hg u hu) _ _ e1
    have hv1 := hfil v (hg' v hv) _ _ e2
    have hb1 := b1.bound u (hg u hu)
    have hs1 := hh.sub u hu
    have hs2 := hh'.sub v hv
    have hpw : c1.Pairwise fun c d => d.start ≤ c.start ∧ ∀ a b a' b', c.hz = some (a, b) → d.hz = some (a', b') → b' ≤ a :=
      H.order.and H.chain.pairwise
    rcases pairwise_or hpw hu1 hv1 with rfl | r | r
    · omega
    · omega
    · exact r.2 _ _ _ _ e2 e1
  case hzSpan =>
    intro k s' hk
    obtain ⟨d, hd, a, b, r1, r2, r3, r4, r5⟩ := H.span k s' hk
    obtain ⟨c, hc, h3, h4, h5⟩ := hpiece d (b2 d (a2 d hd))
    obtain ⟨a', b', e1, e2, e3⟩ := h5 a b r1
    exact ⟨c, hc, a', b', e1, by omega, by omega, by omega, by omega⟩
  case hzLink =>
    intro k k' s1 s2 hkk hk hk' hle
    obtain ⟨d, hd, a, b, r1, r2, r3⟩ := H.link k k' s1 s2 hkk hk hk' hle
    obtain ⟨c, hc, h3, h4, h5⟩ := hpiece d (b2 d (a2 d hd))
    obtain ⟨a', b', e1, e2, e3⟩ := h5 a b r1
    exact ⟨c, hc, a', b', e1, by omega, by omega⟩

end Verif.Sweep
