import Verif.Scan.Model

/-! Lists of records: looking up neighbours, sorting, and what the loops of `build_scan_line_orders` collect. -/

namespace Verif.Scan
open Verif.Topo Verif.Merge
set_option linter.unusedSectionVars false

variable {K : Type} [LinearOrder K] {W : Type} [AddCommGroup W] [DecidableEq W]

theorem iter_nil : iter ([] : List (Rec K)) = [] := rfl
theorem iter_one (a : Rec K) : iter [a] = [(a.1, ⊤, a.2)] := rfl
theorem iter_cons (a b : Rec K) (l : List (Rec K)) : iter (a :: b :: l) = (a.1, (b.1 : WithTop K), a.2) :: iter (b :: l) := by
  simp [iter]

/-- Looking up: the newest record at or before the height. -/
theorem neighborAfter_eq {recs : List (Rec K)} (hs : recs.Pairwise fun a b => a.1 < b.1) {y : K} {r : Rec K} (hr : r ∈ recs)
    (hy : r.1 ≤ y) (hmax : ∀ r' ∈ recs, r'.1 ≤ y → r'.1 ≤ r.1) : neighborAfter recs y = r.2 := by
  induction recs with
  | nil => simp at hr
  | cons a l ih =>
    rw [List.pairwise_cons] at hs
    cases l with
    | nil =>
      have : r = a := by simpa using hr
      subst this
      simp [neighborAfter, iter_one, hy]
    | cons b l =>
      rcases List.mem_cons.1 hr with rfl | hr
      · have hb : y < b.1 := by
          by_contra h
          have := hmax b (by simp) (not_lt.1 h)
          exact absurd (hs.1 b (by simp)) (not_lt.2 this)
        simp [neighborAfter, iter_cons, hy, hb]
      · have hab : a.1 ≤ y := le_trans (le_of_lt (hs.1 r hr)) hy
        have hby : b.1 ≤ y := by
          rcases List.mem_cons.1 hr with rfl | hr'
          · exact hy
          · exact le_trans (le_of_lt ((List.pairwise_cons.1 hs.2).1 r hr')) hy
        have := ih hs.2 hr (fun r' h => hmax r' (List.mem_cons_of_mem _ h))
        rw [← this]
        unfold neighborAfter
        rw [iter_cons, List.takeWhile_cons_of_pos (by simpa using hab), List.find?_cons_of_neg (by simpa using hby)]

theorem neighborAfter_none {recs : List (Rec K)} {y : K} (h : ∀ r ∈ recs, y < r.1) : neighborAfter recs y = none := by
  cases recs with
  | nil => rfl
  | cons a l =>
    have ha := h a (by simp)
    cases l with
    | nil => simp [neighborAfter, iter_one, ha]
    | cons b l => simp [neighborAfter, iter_cons, ha]

/-! ## Sorting -/

theorem dedup_sub (recs : List (Rec K)) : ∀ r, r ∈ dedup recs ↔ r ∈ recs := by
  induction hn : recs.length using Nat.strong_induction_on generalizing recs with
  | _ n ih =>
    match recs with
    | [] => simp [dedup]
    | [a] => simp [dedup]
    | a :: b :: l =>
      intro r
      rw [dedup]
      split
      · rename_i hab
        subst hab
        rw [ih (a :: l).length (by rw [← hn]; simp) _ rfl]
        simp
      · rw [List.mem_cons, ih (b :: l).length (by rw [← hn]; simp) _ rfl, ← List.mem_cons]

/-- Consecutive duplicates removed from a list sorted by height that has one value per height: strictly sorted. -/
theorem dedup_sorted (recs : List (Rec K)) (hs : recs.Pairwise fun a b => a.1 ≤ b.1)
    (hf : ∀ r ∈ recs, ∀ r' ∈ recs, r.1 = r'.1 → r = r') : (dedup recs).Pairwise fun a b => a.1 < b.1 := by
  induction hn : recs.length using Nat.strong_induction_on generalizing recs with
  | _ n ih =>
    match recs with
    | [] => simp [dedup]
    | [a] => simp [dedup]
    | a :: b :: l =>
      rw [dedup]
      have hs' := List.pairwise_cons.1 hs
      split
      · rename_i hab
        subst hab
        refine ih (a :: l).length (by rw [← hn]; simp) _ hs'.2 ?_ rfl
        intro r h r' h'
        exact hf r (List.mem_cons_of_mem _ h) r' (List.mem_cons_of_mem _ h')
      · rename_i hab
        rw [List.pairwise_cons]
        constructor
        · intro r hr
          rw [dedup_sub] at hr
          have h1 := hs'.1 b (by simp)
          have h2 : b.1 ≤ r.1 := by
            rcases List.mem_cons.1 hr with rfl | hr
            · exact le_refl _
            · exact (List.pairwise_cons.1 hs'.2).1 r hr
          rcases lt_or_eq_of_le h1 with h | h
          · exact lt_of_lt_of_le h h2
          · exact absurd (hf a (by simp) b (by simp) h) hab
        · refine ih (b :: l).length (by rw [← hn]; simp) _ hs'.2 ?_ rfl
          intro r h r' h'
          exact hf r (List.mem_cons_of_mem _ h) r' (List.mem_cons_of_mem _ h')

theorem tidy_mem (recs : List (Rec K)) (r : Rec K) : r ∈ tidy recs ↔ r ∈ recs := by
  unfold tidy
  rw [dedup_sub]; exact (List.mergeSort_perm _ _).mem_iff

theorem tidy_sorted (recs : List (Rec K)) (hf : ∀ r ∈ recs, ∀ r' ∈ recs, r.1 = r'.1 → r = r') :
    (tidy recs).Pairwise fun a b => a.1 < b.1 := by
  refine dedup_sorted _ ?_ ?_
  · have := List.pairwise_mergeSort (le := fun a b : Rec K => decide (a.1 ≤ b.1))
      (by intro a b c h1 h2; simp only [decide_eq_true_eq] at *; exact le_trans h1 h2)
      (by intro a b; simp only [Bool.or_eq_true, decide_eq_true_eq]; exact le_total _ _) recs
    exact this.imp (by intro a b h; simpa using h)
  · intro r h r' h'
    exact hf r ((List.mergeSort_perm _ _).mem_iff.1 h) r' ((List.mergeSort_perm _ _).mem_iff.1 h')

/-! ## The loops -/

theorem set_append_mem (f : Nat → List (Rec K)) (i o : Nat) (r r' : Rec K) :
    r' ∈ Verif.Topo.set f i (f i ++ [r]) o ↔ r' ∈ f o ∨ (o = i ∧ r' = r) := by
  unfold Verif.Topo.set
  split
  · rename_i h; subst h; simp
  · rename_i h; simp [h]

/-- The height of the start of `i`, and whether `i` is horizontal. -/
structure Heights (t : Topo K W) (sy : Nat → K) (hz : Nat → Bool) (l : List Nat) : Prop where
  start : ∀ i ∈ l, ∃ x, pointOf t ⟨i, true⟩ = some (x, sy i)
  horiz : ∀ i ∈ l, isHorizontal t i = some (hz i)

theorem loop1_spec (t : Topo K W) (sy : Nat → K) (hz : Nat → Bool) (l : List Nat) : ∀ m : Maps K, Heights t sy hz l →
    ∃ m', loop1 t l m = some m' ∧ m'.east = m.east ∧
      ∀ o r, r ∈ m'.west o ↔ r ∈ m.west o ∨ (o ∈ l ∧ hz o = false ∧ ∃ w, t.scanWest o = some w ∧ r = (sy o, some w)) := by
  induction l with
  | nil => intro m _; exact ⟨m, rfl, rfl, by simp⟩
  | cons i l ih =>
    intro m H
    have H' : Heights t sy hz l := ⟨fun j hj => H.start j (List.mem_cons_of_mem _ hj), fun j hj => H.horiz j (List.mem_cons_of_mem _ hj)⟩
    obtain ⟨x, hx⟩ := H.start i (by simp)
    have hh := H.horiz i (by simp)
    rw [loop1]
    cases hb : hz i with
    | true =>
      simp only [hh, hb]
      obtain ⟨m', h1, h2, h3⟩ := ih m H'
      refine ⟨m', h1, h2, fun o r => ?_⟩
      rw [h3]
      constructor
      · rintro (h | ⟨h, h'⟩)
        · exact .inl h
        · exact .inr ⟨List.mem_cons_of_mem _ h, h'⟩
      · rintro (h | ⟨h, h', h''⟩)
        · exact .inl h
        · rcases List.mem_cons.1 h with rfl | h
          · rw [hb] at h'; simp at h'
          · exact .inr ⟨h, h', h''⟩
    | false =>
      simp only [hh, hb, hx]
      cases hw : t.scanWest i with
      | none =>
        obtain ⟨m', h1, h2, h3⟩ := ih m H'
        refine ⟨m', h1, h2, fun o r => ?_⟩
        rw [h3]
        constructor
        · rintro (h | ⟨h, h'⟩)
          · exact .inl h
          · exact .inr ⟨List.mem_cons_of_mem _ h, h'⟩
        · rintro (h | ⟨h, h', w, h'', h3⟩)
          · exact .inl h
          · rcases List.mem_cons.1 h with rfl | h
            · rw [hw] at h''; simp at h''
            · exact .inr ⟨h, h', w, h'', h3⟩
      | some w =>
        obtain ⟨m', h1, h2, h3⟩ := ih { m with west := Verif.Topo.set m.west i (m.west i ++ [(sy i, some w)]) } H'
        refine ⟨m', h1, h2, fun o r => ?_⟩
        rw [h3, set_append_mem]
        constructor
        · rintro ((h | ⟨rfl, rfl⟩) | ⟨h, h'⟩)
          · exact .inl h
          · exact .inr ⟨by simp, hb, w, hw, rfl⟩
          · exact .inr ⟨List.mem_cons_of_mem _ h, h'⟩
        · rintro (h | ⟨h, h', w', h'', h3⟩)
          · exact .inl (.inl h)
          · rcases List.mem_cons.1 h with rfl | h
            · rw [hw] at h''
              have : w = w' := by simpa using h''
              subst this
              exact .inl (.inr ⟨rfl, h3⟩)
            · exact .inr ⟨h, h', w', h'', h3⟩

theorem later_of {y : K} {recs : List (Rec K)} (h : ∀ r ∈ recs, r.1 < y) : later y recs = true := by
  unfold later
  cases hl : recs.getLast? with
  | none => rfl
  | some r => simpa using h r (List.mem_of_getLast? hl)

/-- `H2`: the records already present for `e`, and those of earlier segments, are earlier. -/
theorem loop2_spec (t : Topo K W) (sy : Nat → K) (hz : Nat → Bool) (l : List Nat) : ∀ m : Maps K, Heights t sy hz l → l.Nodup →
    (∀ i ∈ l, ∀ e, t.scanEast i = some e → ∀ r ∈ m.west e, r.1 < sy i) →
    (l.Pairwise fun i j => ∀ e, t.scanEast i = some e → t.scanEast j = some e → sy i < sy j) →
    ∃ m', loop2 t l m = some m' ∧
      (∀ o r, r ∈ m'.west o ↔ r ∈ m.west o ∨ ∃ i ∈ l, t.scanEast i = some o ∧ r = (sy i, some i)) ∧
      ∀ o r, r ∈ m'.east o ↔ r ∈ m.east o ∨ (o ∈ l ∧ ∃ e, t.scanEast o = some e ∧ r = (sy o, some e)) := by
  induction l with
  | nil => intro m _ _ _ _; exact ⟨m, rfl, by simp, by simp⟩
  | cons i l ih =>
    intro m H hnd hlt hpw
    have H' : Heights t sy hz l := ⟨fun j hj => H.start j (List.mem_cons_of_mem _ hj), fun j hj => H.horiz j (List.mem_cons_of_mem _ hj)⟩
    obtain ⟨x, hx⟩ := H.start i (by simp)
    rw [List.pairwise_cons] at hpw
    rw [List.nodup_cons] at hnd
    rw [loop2]
    simp only [hx]
    cases he : t.scanEast i with
    | none =>
      obtain ⟨m', h1, h2, h3⟩ := ih m H' hnd.2 (fun j hj => hlt j (List.mem_cons_of_mem _ hj)) hpw.2
      refine ⟨m', h1, fun o r => ?_, fun o r => ?_⟩
      · rw [h2]
        constructor
        · rintro (h | ⟨j, h, h'⟩)
          · exact .inl h
          · exact .inr ⟨j, List.mem_cons_of_mem _ h, h'⟩
        · rintro (h | ⟨j, h, h', h''⟩)
          · exact .inl h
          · rcases List.mem_cons.1 h with rfl | h
            · rw [he] at h'; simp at h'
            · exact .inr ⟨j, h, h', h''⟩
      · rw [h3]
        constructor
        · rintro (h | ⟨h, h'⟩)
          · exact .inl h
          · exact .inr ⟨List.mem_cons_of_mem _ h, h'⟩
        · rintro (h | ⟨h, e, h', h''⟩)
          · exact .inl h
          · rcases List.mem_cons.1 h with rfl | h
            · rw [he] at h'; simp at h'
            · exact .inr ⟨h, e, h', h''⟩
    | some e =>
      simp only
      rw [if_pos (later_of (fun r hr => hlt i (by simp) e he r hr))]
      obtain ⟨m', h1, h2, h3⟩ := ih ⟨Verif.Topo.set m.west e (m.west e ++ [(sy i, some i)]),
        Verif.Topo.set m.east i (m.east i ++ [(sy i, some e)])⟩ H' hnd.2 (by
          intro j hj e' he' r hr
          rcases (set_append_mem _ _ _ _ _).1 hr with hr | ⟨rfl, rfl⟩
          · exact hlt j (List.mem_cons_of_mem _ hj) e' he' r hr
          · exact hpw.1 j hj _ he he') hpw.2
      refine ⟨m', h1, fun o r => ?_, fun o r => ?_⟩
      · rw [h2, set_append_mem]
        constructor
        · rintro ((h | ⟨rfl, rfl⟩) | ⟨j, h, h'⟩)
          · exact .inl h
          · exact .inr ⟨i, by simp, he, rfl⟩
          · exact .inr ⟨j, List.mem_cons_of_mem _ h, h'⟩
        · rintro (h | ⟨j, h, h', h''⟩)
          · exact .inl (.inl h)
          · rcases List.mem_cons.1 h with rfl | h
            · rw [he] at h'
              have : e = o := by simpa using h'
              exact .inl (.inr ⟨this.symm, h''⟩)
            · exact .inr ⟨j, h, h', h''⟩
      · rw [h3, set_append_mem]
        constructor
        · rintro ((h | ⟨rfl, rfl⟩) | ⟨h, h'⟩)
          · exact .inl h
          · exact .inr ⟨by simp, e, he, rfl⟩
          · exact .inr ⟨List.mem_cons_of_mem _ h, h'⟩
        · rintro (h | ⟨h, e', h', h''⟩)
          · exact .inl (.inl h)
          · rcases List.mem_cons.1 h with rfl | h
            · rw [he] at h'
              have : e = e' := by simpa using h'
              subst this
              exact .inl (.inr ⟨rfl, h''⟩)
            · exact .inr ⟨h, e', h', h''⟩

theorem loop3_spec (t : Topo K W) (sy : Nat → K) (hz : Nat → Bool) (l : List Nat) : ∀ m : Maps K, Heights t sy hz l → l.Nodup →
    (∀ i ∈ l, hz i = false → ∀ w, t.scanWest i = some w → ∀ r ∈ m.east w, r.1 < sy i) →
    (l.Pairwise fun i j => hz i = false → hz j = false → ∀ w, t.scanWest i = some w → t.scanWest j = some w → sy i < sy j) →
    ∃ m', loop3 t l m = some m' ∧ m'.west = m.west ∧
      ∀ o r, r ∈ m'.east o ↔ r ∈ m.east o ∨ ∃ i ∈ l, hz i = false ∧ t.scanWest i = some o ∧ r = (sy i, some i) := by
  induction l with
  | nil => intro m _ _ _ _; exact ⟨m, rfl, rfl, by simp⟩
  | cons i l ih =>
    intro m H hnd hlt hpw
    have H' : Heights t sy hz l := ⟨fun j hj => H.start j (List.mem_cons_of_mem _ hj), fun j hj => H.horiz j (List.mem_cons_of_mem _ hj)⟩
    obtain ⟨x, hx⟩ := H.start i (by simp)
    have hh := H.horiz i (by simp)
    rw [List.pairwise_cons] at hpw
    rw [List.nodup_cons] at hnd
    rw [loop3]
    have skip : (hz i = true ∨ t.scanWest i = none) → ∃ m', loop3 t l m = some m' ∧ m'.west = m.west ∧
      ∀ o r, r ∈ m'.east o ↔ r ∈ m.east o ∨ ∃ j ∈ i :: l, hz j = false ∧ t.scanWest j = some o ∧ r = (sy j, some j) := by
      intro hsk
      obtain ⟨m', h1, h2, h3⟩ := ih m H' hnd.2 (fun j hj => hlt j (List.mem_cons_of_mem _ hj)) hpw.2
      refine ⟨m', h1, h2, fun o r => ?_⟩
      rw [h3]
      constructor
      · rintro (h | ⟨j, h, h'⟩)
        · exact .inl h
        · exact .inr ⟨j, List.mem_cons_of_mem _ h, h'⟩
      · rintro (h | ⟨j, h, h', h'', h3⟩)
        · exact .inl h
        · rcases List.mem_cons.1 h with rfl | h
          · rcases hsk with k | k
            · rw [k] at h'; simp at h'
            · rw [k] at h''; simp at h''
          · exact .inr ⟨j, h, h', h'', h3⟩
    cases hb : hz i with
    | true => simp only [hh, hb]; exact skip (.inl hb)
    | false =>
      simp only [hh, hb, hx]
      cases hw : t.scanWest i with
      | none => simp only; exact skip (.inr hw)
      | some w =>
        simp only
        rw [if_pos (later_of (fun r hr => hlt i (by simp) hb w hw r hr))]
        obtain ⟨m', h1, h2, h3⟩ := ih ⟨m.west, Verif.Topo.set m.east w (m.east w ++ [(sy i, some i)])⟩ H' hnd.2 (by
          intro j hj hzj w' hw' r hr
          rcases (set_append_mem _ _ _ _ _).1 hr with hr | ⟨rfl, rfl⟩
          · exact hlt j (List.mem_cons_of_mem _ hj) hzj w' hw' r hr
          · exact hpw.1 j hj hb hzj _ hw hw') hpw.2
        refine ⟨m', h1, h2, fun o r => ?_⟩
        rw [h3, set_append_mem]
        constructor
        · rintro ((h | ⟨rfl, rfl⟩) | ⟨j, h, h'⟩)
          · exact .inl h
          · exact .inr ⟨i, by simp, hb, hw, rfl⟩
          · exact .inr ⟨j, List.mem_cons_of_mem _ h, h'⟩
        · rintro (h | ⟨j, h, h', h'', h4⟩)
          · exact .inl (.inl h)
          · rcases List.mem_cons.1 h with rfl | h
            · rw [hw] at h''
              have : w = o := by simpa using h''
              exact .inl (.inr ⟨this.symm, h4⟩)
            · exact .inr ⟨j, h, h', h'', h4⟩

theorem loop4_spec (l : List (K × Option Nat × Option Nat)) : ∀ m : Maps K,
    (∀ o y v, (y, v) ∈ (loop4 l m).west o ↔ (y, v) ∈ m.west o ∨ (y, v, some o) ∈ l) ∧
    (∀ o y v, (y, v) ∈ (loop4 l m).east o ↔ (y, v) ∈ m.east o ∨ (y, some o, v) ∈ l) := by
  induction l with
  | nil => intro m; simp [loop4]
  | cons a l ih =>
    intro m
    obtain ⟨y0, w, e⟩ := a
    simp only [loop4]
    constructor
    · intro o y v
      rw [(ih _).1]
      cases e with
      | none => cases w <;> simp
      | some e =>
        cases w <;>
        · simp only [set_append_mem, List.mem_cons, Prod.mk.injEq, Option.some.injEq]
          tauto
    · intro o y v
      rw [(ih _).2]
      cases e <;> cases w <;> simp only [set_append_mem, List.mem_cons, Prod.mk.injEq, Option.some.injEq, reduceCtorEq, false_and, and_false, false_or] <;> tauto

end Verif.Scan
