import Verif.Scan.Sweep

/-! One range changes the records as described in `Abstract`; the invariant holds in all executions. -/

namespace Verif.Scan
open Verif.Topo Verif.Range Verif.Merge
set_option linter.unusedSectionVars false

variable {K : Type} [LinearOrder K] {W : Type} [AddCommGroup W]

section
variable {single : Nat → Bool → W} {orient : Nat → Bool} {hist : List (K × OutputEvent K)} {A B : List Nat} {y : K}
  {E Eo En : List (OutputEvent K)} {t t' : Topo K W} {nOf : Nat → Nat}

theorem Res.points_lt (R : Res y A B Eo En t t' nOf) {p : Nat} (hp : p < t.points.length) : t'.points[p]? = t.points[p]? := by
  obtain ⟨ps, h, _⟩ := R.points_old
  rw [h, List.getElem?_append_left hp]

theorem Res.starts_old (R : Res y A B Eo En t t' nOf) (hg : Good single t) {i : Nat} (hi : i < t.n) (y' : K) :
    StartsAt t' i y' ↔ StartsAt t i y' := by
  have := hg.firstSome i hi
  rw [Option.isSome_iff_exists] at this
  obtain ⟨p, hp⟩ := this
  have hpl := (hg.ptLt _ _ hp).1
  unfold StartsAt
  rw [R.pidx_old _ _ hp, hp]
  constructor
  · rintro ⟨q, x, h1, h2⟩
    have : p = q := by simpa using h1
    subst this
    exact ⟨p, x, rfl, by rw [← R.points_lt hpl]; exact h2⟩
  · rintro ⟨q, x, h1, h2⟩
    have : p = q := by simpa using h1
    subst this
    exact ⟨p, x, rfl, by rw [R.points_lt hpl]; exact h2⟩

theorem Res.ends_old (R : Res y A B Eo En t t' nOf) (hg : Good single t) {i : Nat} (hc : t.pointIdx ⟨i, false⟩ ≠ none) (y' : K) :
    EndsAt t' i y' ↔ EndsAt t i y' := by
  obtain ⟨p, hp⟩ := Option.ne_none_iff_exists'.1 hc
  have hpl := (hg.ptLt _ _ hp).1
  unfold EndsAt
  rw [R.pidx_old _ _ hp, hp]
  constructor
  · rintro ⟨q, x, h1, h2⟩
    have : p = q := by simpa using h1
    subst this
    exact ⟨p, x, rfl, by rw [← R.points_lt hpl]; exact h2⟩
  · rintro ⟨q, x, h1, h2⟩
    have : p = q := by simpa using h1
    subst this
    exact ⟨p, x, rfl, by rw [R.points_lt hpl]; exact h2⟩

theorem Res.horiz_old (R : Res y A B Eo En t t' nOf) (hg : Good single t) {i : Nat} (hi : i < t.n) :
    Horiz t' i ↔ Horiz t i := by
  constructor
  · rintro ⟨a, b, hr, he⟩
    by_cases hc : t.pointIdx ⟨i, false⟩ = none
    · exact absurd he (R.vert_old i hi hc a b hr)
    · obtain ⟨q, hq⟩ := Option.ne_none_iff_exists'.1 hc
      have := hg.firstSome i hi
      rw [Option.isSome_iff_exists] at this
      obtain ⟨p, hp⟩ := this
      obtain ⟨p', q', k1, k2, k3, k4⟩ := hr
      rw [R.pidx_old _ _ hp] at k1
      rw [R.pidx_old _ _ hq] at k2
      have : p = p' := by simpa using k1
      subst this
      have : q = q' := by simpa using k2
      subst this
      rw [R.points_lt (hg.ptLt _ _ hp).1] at k3
      rw [R.points_lt (hg.ptLt _ _ hq).1] at k4
      exact ⟨a, b, ⟨p, q, hp, hq, k3, k4⟩, he⟩
  · rintro ⟨a, b, ⟨p, q, k1, k2, k3, k4⟩, he⟩
    refine ⟨a, b, ⟨p, q, R.pidx_old _ _ k1, R.pidx_old _ _ k2, ?_, ?_⟩, he⟩
    · rw [R.points_lt (hg.ptLt _ _ k1).1]; exact k3
    · rw [R.points_lt (hg.ptLt _ _ k2).1]; exact k4

theorem horiz_closed {i : Nat} (h : Horiz t i) : t.pointIdx ⟨i, false⟩ ≠ none := by
  obtain ⟨a, b, ⟨p, q, _, k2, _⟩, _⟩ := h
  rw [k2]; simp

/-- What one range does to the records. -/
structure StepRec (n n' : Nat) (LA LO LB N : List Nat) (t t' : Topo K W) (y : K) : Prop where
  hn : n ≤ n'
  nd : N.Nodup
  lt : ∀ o ∈ N, n ≤ o ∧ o < n'
  hW : ∀ o y' v, InW t' o y' v ↔ InW t o y' v ∨ (y' = y ∧ ∃ i, LA.length ≤ i ∧ i ≤ LA.length + N.length ∧
      (LA ++ N ++ LB)[i]? = some o ∧ v = prev (LA ++ N ++ LB) i ∧ (v ≠ none ∨ i = LA.length + N.length))
  hE : ∀ o y' v, InE t' o y' v ↔ InE t o y' v ∨ (y' = y ∧ ∃ i, LA.length ≤ i + 1 ∧ i + 1 ≤ LA.length + N.length ∧
      (LA ++ N ++ LB)[i]? = some o ∧ v = (LA ++ N ++ LB)[i + 1]? ∧ (v ≠ none ∨ i + 1 = LA.length))
  hS : ∀ o y', Sv t' o y' ↔ Sv t o y' ∨ (o ∈ N ∧ y' = y)
  hC : ∀ o y', Cv t' o y' ↔ Cv t o y' ∨ (o ∈ LO ∧ y' = y)
  windOld : ∀ i < n, t'.winding i = t.winding i
  origOld : ∀ i < n, t'.origSeg i = t.origSeg i
  eastOld : ∀ i < n, t'.scanEast i = t.scanEast i
  eastNew : ∀ i, n ≤ i → i < n' → ∀ e, t'.scanEast i = some e → i ∈ N ∧ LB.head? = some e

theorem Res.stepRec (R : Res y A B Eo En t t' nOf) (hinv : LineInv single orient hist (A ++ Eo.map OutputEvent.segIdx ++ B) t)
    (hinv' : ∃ hist', LineInv single orient hist' (A ++ En.map OutputEvent.segIdx ++ B) t') :
    StepRec t.n t'.n (A.map (out t)) ((Eo.map OutputEvent.segIdx).map (out t)) (B.map (out t)) (En.map fun e => nOf e.segIdx) t t' y := by
  obtain ⟨hist', hinv'⟩ := hinv'
  have hg := hinv.good
  have hg' := hinv'.good
  have hn := R.n_le
  have lastA : (A.map (out t)).getLast? = A.getLast?.map (out t) := by rw [List.getLast?_map]
  have headB : (B.map (out t)).head? = B.head?.map (out t) := by rw [List.head?_map]
  have outLt : ∀ a ∈ A ++ Eo.map OutputEvent.segIdx ++ B, out t a < t.n ∧ t.pointIdx ⟨out t a, false⟩ = none ∧ t.origSeg (out t a) = a := by
    intro a ha
    obtain ⟨o, _, _, _, h1, _⟩ := hinv.openIn a ha
    have := (hg.openIff o a).1 (by rw [h1]; simp)
    unfold out; rw [h1]
    exact ⟨this.1, this.2.2, this.2.1⟩
  have newOpen : ∀ e ∈ En, t'.pointIdx ⟨nOf e.segIdx, false⟩ = none ∧ t'.origSeg (nOf e.segIdx) = e.segIdx := by
    intro e he
    have := (hg'.openIff (nOf e.segIdx) e.segIdx).1 (by rw [(R.new e he).1]; simp)
    exact ⟨this.2.2, this.2.1⟩
  have newVert : ∀ e ∈ En, ¬ Horiz t' (nOf e.segIdx) := fun e he h => horiz_closed h (newOpen e he).1
  have startY : ∀ i y', StartsAt t' i y' → ∀ y'', StartsAt t' i y'' → y' = y'' := by
    rintro i y' ⟨p, x, h1, h2⟩ y'' ⟨q, x', h3, h4⟩
    rw [h1] at h3
    have : p = q := by simpa using h3
    subst this
    rw [h2] at h4
    simp at h4; exact h4.2
  have newStart : ∀ e ∈ En, ∀ y', StartsAt t' (nOf e.segIdx) y' ↔ y' = y := by
    intro e he y'
    obtain ⟨_, _, _, p, h1, h2⟩ := R.new e he
    constructor
    · intro h
      exact startY _ _ h y ⟨p, _, h1, h2⟩
    · rintro rfl; exact ⟨p, _, h1, h2⟩
  have memN : ∀ o, o ∈ (En.map fun e => nOf e.segIdx) ↔ ∃ e ∈ En, o = nOf e.segIdx := by
    intro o
    rw [List.mem_map]
    constructor
    · rintro ⟨e, he, rfl⟩; exact ⟨e, he, rfl⟩
    · rintro ⟨e, he, rfl⟩; exact ⟨e, he, rfl⟩
  have eEq : (En.map fun e => nOf e.segIdx) = [] ↔ En = [] := by simp
  constructor
  case hn => exact hn
  case nd =>
    have hnd := hinv'.nodup
    rw [List.append_assoc, List.nodup_append, List.nodup_append] at hnd
    have ndEn := hnd.2.1.1
    have hi : ∀ e ∈ En, ∀ e' ∈ En, nOf e.segIdx = nOf e'.segIdx → e.segIdx = e'.segIdx := by
      intro e he e' he' h
      rw [← (newOpen e he).2, ← (newOpen e' he').2, h]
    have e : (En.map fun e => nOf e.segIdx) = (En.map OutputEvent.segIdx).map nOf := by rw [List.map_map]; rfl
    rw [e]
    refine ndEn.map_on ?_
    intro a ha b hb hab
    obtain ⟨e, he, rfl⟩ := List.mem_map.1 ha
    obtain ⟨e', he', rfl⟩ := List.mem_map.1 hb
    exact hi e he e' he' hab
  case lt =>
    intro o ho
    obtain ⟨e, he, rfl⟩ := (memN o).1 ho
    exact ⟨(R.new e he).2.1, (R.new e he).2.2.1⟩
  case hW =>
    intro o y' v
    rw [gapW, lastA, headB]
    constructor
    · rintro (⟨h1, h2, h3, h4, h5⟩ | ⟨i, h1, h2, h3, h4⟩ | h1)
      · by_cases ho : o < t.n
        · rw [R.horiz_old hg ho] at h2
          rw [R.starts_old hg ho] at h3
          rw [R.west_old o ho] at h5
          exact .inl (.inl ⟨ho, h2, h3, h4, h5⟩)
        · rcases R.kinds o (by omega) h1 with ⟨e, he, rfl⟩ | ⟨a, b, hr⟩
          · obtain ⟨l1, l2, hsp⟩ := List.append_of_mem ((memN _).2 ⟨e, he, rfl⟩)
            refine .inr ⟨(newStart e he y').1 h3, .inl ⟨l1, l2, hsp, ?_, h4⟩⟩
            rw [← h5]; exact R.west l1 _ l2 hsp
          · exact absurd ⟨_, _, hr, rfl⟩ h2
      · by_cases hi : i < t.n
        · rw [R.starts_old hg hi] at h3
          rw [R.east_old i hi] at h2
          exact .inl (.inr (.inl ⟨i, hi, h2, h3, h4⟩))
        · rw [R.east_new i (by omega) h1] at h2
          split at h2
          · rename_i hl
            obtain ⟨e, he, rfl⟩ := (memN i).1 (List.mem_of_getLast? hl)
            refine .inr ⟨(newStart e he y').1 h3, .inr ⟨h2, ?_⟩⟩
            rw [hl, h4]; rfl
          · simp at h2
      · rw [R.after, List.mem_append] at h1
        rcases h1 with h1 | h1
        · exact .inl (.inr (.inr h1))
        · split at h1
          · rename_i hc
            simp only [List.mem_singleton, Prod.mk.injEq] at h1
            obtain ⟨e1, e2, e3⟩ := h1
            refine .inr ⟨e1, .inr ⟨e3.symm, ?_⟩⟩
            rw [hc.1, e2]; rfl
          · simp at h1
    · rintro (hold | ⟨rfl, ⟨l1, l2, hsp, h2, h3⟩ | ⟨h1, h2⟩⟩)
      · rcases hold with ⟨h1, h2, h3, h4, h5⟩ | ⟨i, h1, h2, h3, h4⟩ | h1
        · refine .inl ⟨by omega, ?_, ?_, h4, ?_⟩
          · rw [R.horiz_old hg h1]; exact h2
          · rw [R.starts_old hg h1]; exact h3
          · rw [R.west_old o h1]; exact h5
        · refine .inr (.inl ⟨i, by omega, ?_, ?_, h4⟩)
          · rw [R.east_old i h1]; exact h2
          · rw [R.starts_old hg h1]; exact h3
        · exact .inr (.inr (by rw [R.after]; exact List.mem_append_left _ h1))
      · have hm : o ∈ (En.map fun e => nOf e.segIdx) := by rw [hsp]; simp
        obtain ⟨e, he, rfl⟩ := (memN o).1 hm
        exact .inl ⟨(R.new e he).2.2.1, newVert e he, (newStart e he _).2 rfl, h3, by rw [h2]; exact R.west l1 _ l2 hsp⟩
      · cases hl : (En.map fun e => nOf e.segIdx).getLast? with
        | none =>
          have hEn : En = [] := by rw [← eEq]; simpa using hl
          refine .inr (.inr ?_)
          have hB : B ≠ [] := by rintro rfl; simp at h1
          rw [R.after, if_pos ⟨hEn, .inr hB⟩]
          rw [hl] at h2
          simp only [List.mem_append, List.mem_singleton, Prod.mk.injEq, true_and]
          exact .inr ⟨h2, h1.symm⟩
        | some i =>
          obtain ⟨e, he, rfl⟩ := (memN i).1 (List.mem_of_getLast? hl)
          refine .inr (.inl ⟨nOf e.segIdx, (R.new e he).2.2.1, ?_, (newStart e he _).2 rfl, by rw [h2, hl]; rfl⟩)
          rw [R.east_new _ (R.new e he).2.1 (R.new e he).2.2.1, if_pos hl]; exact h1
  case hE =>
    intro o y' v
    rw [gapE, lastA, headB]
    constructor
    · rintro (⟨h1, h3, h4, h5⟩ | ⟨i, h1, h2, h3, h4, h5⟩ | h1)
      · by_cases ho : o < t.n
        · rw [R.starts_old hg ho] at h3
          rw [R.east_old o ho] at h5
          exact .inl (.inl ⟨ho, h3, h4, h5⟩)
        · rw [R.east_new o (by omega) h1] at h5
          split at h5
          · rename_i hl
            obtain ⟨e, he, rfl⟩ := (memN o).1 (List.mem_of_getLast? hl)
            obtain ⟨l1, hsp⟩ := List.getLast?_eq_some_iff.1 hl
            refine .inr ⟨(newStart e he y').1 h3, .inl ⟨l1, [], hsp, h5.symm, h4⟩⟩
          · exact absurd h5.symm h4
      · by_cases hi : i < t.n
        · rw [R.horiz_old hg hi] at h2
          rw [R.west_old i hi] at h3
          rw [R.starts_old hg hi] at h4
          exact .inl (.inr (.inl ⟨i, hi, h2, h3, h4, h5⟩))
        · rcases R.kinds i (by omega) h1 with ⟨e, he, rfl⟩ | ⟨a, b, hr⟩
          · obtain ⟨l1, l2, hsp⟩ := List.append_of_mem ((memN _).2 ⟨e, he, rfl⟩)
            refine .inr ⟨(newStart e he y').1 h4, ?_⟩
            rw [R.west l1 _ l2 hsp] at h3
            rcases List.eq_nil_or_concat l1 with rfl | ⟨l1', z, rfl⟩
            · right
              refine ⟨by simpa using h3, ?_⟩
              rw [hsp, h5]; rfl
            · left
              rw [List.concat_eq_append] at h3 hsp
              have hz : z = o := by simpa using h3
              subst hz
              exact ⟨l1', nOf e.segIdx :: l2, by rw [hsp]; simp, by rw [h5]; rfl, by rw [h5]; simp⟩
          · exact absurd ⟨_, _, hr, rfl⟩ h2
      · rw [R.after, List.mem_append] at h1
        rcases h1 with h1 | h1
        · exact .inl (.inr (.inr h1))
        · split at h1
          · rename_i hc
            simp only [List.mem_singleton, Prod.mk.injEq] at h1
            obtain ⟨e1, e2, e3⟩ := h1
            refine .inr ⟨e1, .inr ⟨e2.symm, ?_⟩⟩
            rw [hc.1, e3]; rfl
          · simp at h1
    · rintro (hold | ⟨rfl, ⟨l1, l2, hsp, h2, h3⟩ | ⟨h1, h2⟩⟩)
      · rcases hold with ⟨h1, h3, h4, h5⟩ | ⟨i, h1, h2, h3, h4, h5⟩ | h1
        · refine .inl ⟨by omega, ?_, h4, ?_⟩
          · rw [R.starts_old hg h1]; exact h3
          · rw [R.east_old o h1]; exact h5
        · refine .inr (.inl ⟨i, by omega, ?_, ?_, ?_, h5⟩)
          · rw [R.horiz_old hg h1]; exact h2
          · rw [R.west_old i h1]; exact h3
          · rw [R.starts_old hg h1]; exact h4
        · exact .inr (.inr (by rw [R.after]; exact List.mem_append_left _ h1))
      · have hm : o ∈ (En.map fun e => nOf e.segIdx) := by rw [hsp]; simp
        obtain ⟨e, he, rfl⟩ := (memN o).1 hm
        cases l2 with
        | nil =>
          refine .inl ⟨(R.new e he).2.2.1, (newStart e he _).2 rfl, h3, ?_⟩
          rw [R.east_new _ (R.new e he).2.1 (R.new e he).2.2.1, if_pos (by rw [hsp]; simp), h2]; rfl
        | cons z l2 =>
          have hz : z ∈ (En.map fun e => nOf e.segIdx) := by rw [hsp]; simp
          obtain ⟨e', he', rfl⟩ := (memN z).1 hz
          refine .inr (.inl ⟨nOf e'.segIdx, (R.new e' he').2.2.1, newVert e' he', ?_, (newStart e' he' _).2 rfl, by rw [h2]; rfl⟩)
          rw [R.west (l1 ++ [nOf e.segIdx]) _ l2 (by rw [hsp]; simp)]; simp
      · cases hl : (En.map fun e => nOf e.segIdx) with
        | nil =>
          have hEn : En = [] := by rw [← eEq]; exact hl
          refine .inr (.inr ?_)
          have hA : A ≠ [] := by rintro rfl; simp at h1
          rw [R.after, if_pos ⟨hEn, .inl hA⟩]
          rw [hl] at h2
          simp only [List.mem_append, List.mem_singleton, Prod.mk.injEq, true_and]
          exact .inr ⟨h1.symm, h2⟩
        | cons z l2 =>
          have hz : z ∈ (En.map fun e => nOf e.segIdx) := by rw [hl]; simp
          obtain ⟨e', he', rfl⟩ := (memN z).1 hz
          refine .inr (.inl ⟨nOf e'.segIdx, (R.new e' he').2.2.1, newVert e' he', ?_, (newStart e' he' _).2 rfl, by rw [h2, hl]; rfl⟩)
          rw [R.west [] _ l2 (by rw [hl]; simp)]; simpa using h1
  case windOld => exact R.wind_old
  case origOld => exact R.orig_old
  case eastOld => exact R.east_old
  case eastNew =>
    intro i h1 h2 e he
    rw [R.east_new i h1 h2] at he
    split at he
    · rename_i hl
      exact ⟨List.mem_of_getLast? hl, by rw [headB]; exact he⟩
    · simp at he
  case hS =>
    intro o y'
    unfold Sv
    constructor
    · rintro ⟨h1, h2, h3⟩
      by_cases ho : o < t.n
      · rw [R.horiz_old hg ho] at h2
        rw [R.starts_old hg ho] at h3
        exact .inl ⟨ho, h2, h3⟩
      · rcases R.kinds o (by omega) h1 with ⟨e, he, rfl⟩ | ⟨a, b, hr⟩
        · exact .inr ⟨(memN _).2 ⟨e, he, rfl⟩, (newStart e he y').1 h3⟩
        · exact absurd ⟨_, _, hr, rfl⟩ h2
    · rintro (⟨h1, h2, h3⟩ | ⟨hm, rfl⟩)
      · exact ⟨by omega, by rw [R.horiz_old hg h1]; exact h2, by rw [R.starts_old hg h1]; exact h3⟩
      · obtain ⟨e, he, rfl⟩ := (memN o).1 hm
        exact ⟨(R.new e he).2.2.1, newVert e he, (newStart e he _).2 rfl⟩
  case hC =>
    intro o y'
    unfold Cv
    constructor
    · rintro ⟨h1, h2, h3⟩
      by_cases ho : o < t.n
      · rw [R.horiz_old hg ho] at h2
        by_cases hc : t.pointIdx ⟨o, false⟩ = none
        · right
          have hop := (hg.openIff o (t.origSeg o)).2 ⟨ho, rfl, hc⟩
          have hline : t.origSeg o ∈ A ++ Eo.map OutputEvent.segIdx ++ B := by
            by_contra hl
            rw [(hinv.openOut _ hl).1] at hop; simp at hop
          have ho2 : out t (t.origSeg o) = o := by
            obtain ⟨o', _, _, _, k1, _⟩ := hinv.openIn _ hline
            rw [k1] at hop
            unfold out; rw [k1]
            have : o = o' := by simpa using hop
            rw [this]; rfl
          have hmem : t.origSeg o ∈ Eo.map OutputEvent.segIdx := by
            by_contra hno
            have hAB : t.origSeg o ∈ A ∨ t.origSeg o ∈ B := by
              simp only [List.mem_append] at hline; tauto
            rw [← R.open_old _ hAB] at hop
            have := ((hg'.openIff _ _).1 hop).2.2
            obtain ⟨p, x, k1, _⟩ := h3
            rw [this] at k1; simp at k1
          refine ⟨List.mem_map.2 ⟨_, hmem, ho2⟩, ?_⟩
          obtain ⟨e, he, hs⟩ := List.mem_map.1 hmem
          obtain ⟨p, k1, k2⟩ := R.closed e he
          rw [hs, ho2] at k1
          obtain ⟨q, x, k3, k4⟩ := h3
          rw [k1] at k3
          have : p = q := by simpa using k3
          subst this
          rw [k2] at k4
          simp at k4; exact k4.2.symm
        · rw [R.ends_old hg hc] at h3
          exact .inl ⟨ho, h2, h3⟩
      · rcases R.kinds o (by omega) h1 with ⟨e, he, rfl⟩ | ⟨a, b, hr⟩
        · obtain ⟨p, x, k1, _⟩ := h3
          rw [(newOpen e he).1] at k1; simp at k1
        · exact absurd ⟨_, _, hr, rfl⟩ h2
    · rintro (⟨h1, h2, h3⟩ | ⟨hm, rfl⟩)
      · refine ⟨by omega, by rw [R.horiz_old hg h1]; exact h2, ?_⟩
        have hc : t.pointIdx ⟨o, false⟩ ≠ none := by
          obtain ⟨p, x, k1, _⟩ := h3
          rw [k1]; simp
        rw [R.ends_old hg hc]; exact h3
      · obtain ⟨a, ha, rfl⟩ := List.mem_map.1 hm
        obtain ⟨e, he, rfl⟩ := List.mem_map.1 ha
        obtain ⟨k1, k2, _⟩ := outLt e.segIdx (by simp only [List.mem_append]; exact .inl (.inr ha))
        obtain ⟨p, k3, k4⟩ := R.closed e he
        refine ⟨by omega, ?_, p, _, k3, k4⟩
        rw [R.horiz_old hg k1]
        exact fun h => horiz_closed h k2

end

/-- One step, with everything it does to the records. -/
theorem Step.records {single : Nat → Bool → W} {orient : Nat → Bool} (hsingle : ∀ s b, single s (!b) = - single s b) {u v : SState K W}
    (h : Step single orient u v) (hr : Run single orient u.hist u.line u.t) :
    ∃ (LA LO LB N : List Nat) (y : K), u.line.map (out u.t) = LA ++ LO ++ LB ∧ v.line.map (out v.t) = LA ++ N ++ LB ∧
      v.yl = y ∧ v.done = LA.length + N.length ∧ (u.yl < y ∨ u.yl = y ∧ u.done < LA.length) ∧
      StepRec u.t.n v.t.n LA LO LB N u.t v.t y := by
  cases h with
  | range hist A B y E Eo En t t' yl done H hy hp =>
    have hinv := hr.inv hsingle
    have hinv' := (Run.range hist A B y E Eo En B.head? false t t' hr H hp).inv hsingle
    obtain ⟨nOf, R⟩ := range_res hsingle H hinv hp
    refine ⟨A.map (out t), (Eo.map OutputEvent.segIdx).map (out t), B.map (out t), En.map fun e => nOf e.segIdx, y, by simp, ?_, rfl,
      by simp, by simpa using hy, R.stepRec hinv ⟨_, hinv'⟩⟩
    simp only [List.map_append, List.map_map]
    congr 1
    · congr 1
      · apply List.map_congr_left
        intro a ha
        unfold out; rw [R.open_old a (.inl ha)]
      · apply List.map_congr_left
        intro e he
        simp only [Function.comp, out, (R.new e he).1]; rfl
    · apply List.map_congr_left
      intro a ha
      unfold out; rw [R.open_old a (.inr ha)]

theorem Steps.ainv {single : Nat → Bool → W} {orient : Nat → Bool} (hsingle : ∀ s b, single s (!b) = - single s b) {s : SState K W}
    (h : Steps single orient SState.init s) :
    AInv s.t.n (s.line.map (out s.t)) (InW s.t) (InE s.t) (Sv s.t) (Cv s.t) s.yl s.done := by
  generalize h0 : (SState.init : SState K W) = s0 at h
  induction h with
  | refl =>
    subst h0
    have e1 : InW (SState.init : SState K W).t = fun _ _ _ => False := by
      funext o y v; simp [InW, SState.init, Topo.init]
    have e2 : InE (SState.init : SState K W).t = fun _ _ _ => False := by
      funext o y v; simp [InE, SState.init, Topo.init]
    have e3 : Sv (SState.init : SState K W).t = fun _ _ => False := by
      funext o y; simp [Sv, SState.init, Topo.init]
    have e4 : Cv (SState.init : SState K W).t = fun _ _ => False := by
      funext o y; simp [Cv, SState.init, Topo.init]
    rw [e1, e2, e3, e4]
    exact AInv.init
  | tail u v hu hst ih =>
    subst h0
    obtain ⟨LA, LO, LB, N, y, h1, h2, h3, h4, h5, R⟩ := hst.records hsingle hu.run
    rw [h1] at ih
    rw [h2, h3, h4]
    exact ih.step y h5 R.hn R.nd R.lt R.hW R.hE R.hS R.hC

end Verif.Scan
